import Verif.Bignum.Model
import Mathlib.Tactic.Ring
import Mathlib.Tactic.Linarith
import Mathlib.Algebra.Order.Ring.Nat

/-!
# The value of a list of limbs, and the loops over limbs
-/

namespace Verif.Bignum

open Verif

/-- The number a list of limbs stands for. -/
def val : List Nat → Nat
  | [] => 0
  | x :: r => x + W64 * val r

/-- All limbs are below 2^64. -/
def LOk (p : List Nat) : Prop := ∀ x ∈ p, x < W64

theorem LOk.head {x : Nat} {r : List Nat} (h : LOk (x :: r)) : x < W64 := h x (List.mem_cons_self ..)
theorem LOk.tail {x : Nat} {r : List Nat} (h : LOk (x :: r)) : LOk r := fun y hy => h y (List.mem_cons_of_mem _ hy)
theorem LOk.cons {x : Nat} {r : List Nat} (h : x < W64) (hr : LOk r) : LOk (x :: r) := by
  intro y hy
  rcases List.mem_cons.1 hy with rfl | hy
  · exact h
  · exact hr y hy
theorem LOk.nil : LOk [] := fun _ h => by simp at h
theorem LOk.append {a b : List Nat} (ha : LOk a) (hb : LOk b) : LOk (a ++ b) := by
  intro y hy
  rcases List.mem_append.1 hy with h | h
  · exact ha y h
  · exact hb y h
theorem LOk.left {a b : List Nat} (h : LOk (a ++ b)) : LOk a := fun y hy => h y (List.mem_append_left _ hy)
theorem LOk.right {a b : List Nat} (h : LOk (a ++ b)) : LOk b := fun y hy => h y (List.mem_append_right _ hy)
theorem LOk.take {a : List Nat} (h : LOk a) (n : Nat) : LOk (a.take n) := fun y hy => h y (List.mem_of_mem_take hy)
theorem LOk.drop {a : List Nat} (h : LOk a) (n : Nat) : LOk (a.drop n) := fun y hy => h y (List.mem_of_mem_drop hy)
theorem LOk.zeros (n : Nat) : LOk (List.replicate n 0) := by
  intro y hy
  rw [(List.mem_replicate.1 hy).2]; decide
theorem LOk.reverse {a : List Nat} (h : LOk a) : LOk a.reverse := fun y hy => h y (List.mem_reverse.1 hy)

theorem val_append (a b : List Nat) : val (a ++ b) = val a + W64 ^ a.length * val b := by
  induction a with
  | nil => simp [val]
  | cons x r ih => rw [List.cons_append, val, ih, val, List.length_cons, pow_succ]; ring

@[simp] theorem val_zeros (n : Nat) : val (List.replicate n 0) = 0 := by
  induction n with
  | zero => rfl
  | succ n ih => rw [List.replicate_succ, val, ih]

theorem val_lt {p : List Nat} (h : LOk p) : val p < W64 ^ p.length := by
  induction p with
  | nil => simp [val]
  | cons x r ih =>
    have h1 := ih h.tail
    have h2 := h.head
    rw [val, List.length_cons, pow_succ]
    generalize W64 ^ r.length = k at *
    omega

theorem val_take_drop (p : List Nat) (n : Nat) (h : n ≤ p.length) : val p = val (p.take n) + W64 ^ n * val (p.drop n) := by
  conv_lhs => rw [← List.take_append_drop n p]
  rw [val_append, List.length_take, Nat.min_eq_left h]

/-! ## Leading zero limbs -/

theorem sig_split (p : List Nat) : ∃ k, p = p.take (sig p) ++ List.replicate k 0 ∧ sig p + k = p.length := by
  have h := List.takeWhile_append_dropWhile (p := (· == 0)) (l := p.reverse)
  have hz : ∀ l : List Nat, l.takeWhile (· == 0) = List.replicate (l.takeWhile (· == 0)).length 0 := by
    intro l
    rw [List.eq_replicate_iff]
    refine ⟨rfl, fun b hb => ?_⟩
    have := List.all_takeWhile (p := (· == 0)) (l := l)
    rw [List.all_eq_true] at this
    simpa using this b hb
  have h2 : p = (p.reverse.dropWhile (· == 0)).reverse ++ List.replicate (p.reverse.takeWhile (· == 0)).length 0 := by
    conv_lhs => rw [← List.reverse_reverse p, ← h, List.reverse_append]
    conv_lhs => rw [hz p.reverse, List.reverse_replicate]
  refine ⟨(p.reverse.takeWhile (· == 0)).length, ?_, ?_⟩
  · have : p.take (sig p) = (p.reverse.dropWhile (· == 0)).reverse := by
      conv_lhs => rw [h2]
      apply List.take_left'
      rw [List.length_reverse]
      rw [← h2]; rfl
    rw [this]; exact h2
  · have := congrArg List.length h
    rw [List.length_append, List.length_reverse] at this
    unfold sig; omega

theorem sig_le (p : List Nat) : sig p ≤ p.length := by obtain ⟨k, -, h⟩ := sig_split p; omega

theorem val_take_sig (p : List Nat) : val (p.take (sig p)) = val p := by
  obtain ⟨k, h, -⟩ := sig_split p
  conv_rhs => rw [h]
  rw [val_append, val_zeros]; simp

theorem val_take_ge_sig (p : List Nat) {n : Nat} (h : sig p ≤ n) : val (p.take n) = val p := by
  obtain ⟨k, hk, hl⟩ := sig_split p
  have h1 : (p.take (sig p)).length = sig p := by rw [List.length_take]; omega
  have : p.take n = p.take (sig p) ++ List.replicate (min (n - sig p) k) 0 := by
    conv_lhs => rw [hk]
    rw [List.take_append, List.take_of_length_le (by omega), h1, List.take_replicate]
  rw [this, val_append, val_zeros, val_take_sig]; simp

/-- The highest significant limb is not zero. -/
theorem sig_top (p : List Nat) (h : sig p ≠ 0) : p.getD (sig p - 1) 0 ≠ 0 := by
  unfold sig at *
  set d := p.reverse.dropWhile (· == 0) with hd
  have hs := List.takeWhile_append_dropWhile (p := (· == 0)) (l := p.reverse)
  rw [← hd] at hs
  match hdd : d, h with
  | x :: r, _ =>
    have hx : x ≠ 0 := by
      have := List.head_dropWhile_not (p := (· == 0)) (l := p.reverse) (by rw [← hd]; simp)
      simp only [← hd] at this
      simpa using this
    have hp : p = r.reverse ++ x :: (p.reverse.takeWhile (· == 0)).reverse := by
      conv_lhs => rw [← List.reverse_reverse p, ← hs]
      simp
    rw [hp]
    simp only [List.length_cons, Nat.add_sub_cancel, List.getD_eq_getElem?_getD]
    rw [List.getElem?_append_right (by simp)]
    simpa using hx

theorem sig_zero_iff (p : List Nat) : sig p = 0 ↔ val p = 0 := by
  constructor
  · intro h
    rw [← val_take_sig, h]; rfl
  · intro h
    by_contra hc
    have ht := sig_top p hc
    have hl := sig_le p
    have hlt : sig p - 1 < p.length := by omega
    have := val_take_drop p (sig p - 1) (by omega)
    rw [List.drop_eq_getElem_cons hlt, val] at this
    rw [List.getD_eq_getElem?_getD, List.getElem?_eq_getElem hlt] at ht
    simp only [Option.getD_some] at ht
    have hp : 0 < W64 ^ (sig p - 1) := Nat.pow_pos (by decide)
    rw [h] at this
    have h0 : W64 ^ (sig p - 1) * (p[sig p - 1] + W64 * val (List.drop (sig p - 1 + 1) p)) = 0 := by omega
    rcases Nat.mul_eq_zero.1 h0 with h0 | h0
    · omega
    · exact ht (by omega)

theorem val_lt_sig {p : List Nat} (h : LOk p) : val p < W64 ^ sig p := by
  rw [← val_take_sig]
  have := val_lt (h.take (sig p))
  rwa [List.length_take, Nat.min_eq_left (sig_le p)] at this

theorem val_ge_sig {p : List Nat} (h : sig p ≠ 0) : W64 ^ (sig p - 1) ≤ val p := by
  have ht := sig_top p h
  have hl := sig_le p
  have hlt : sig p - 1 < p.length := by omega
  have := val_take_drop p (sig p - 1) (by omega)
  rw [List.drop_eq_getElem_cons hlt, val] at this
  rw [List.getD_eq_getElem?_getD, List.getElem?_eq_getElem hlt] at ht
  simp only [Option.getD_some] at ht
  have h1 : 1 ≤ p[sig p - 1] + W64 * val (List.drop (sig p - 1 + 1) p) := by omega
  calc W64 ^ (sig p - 1) = W64 ^ (sig p - 1) * 1 := (Nat.mul_one _).symm
    _ ≤ W64 ^ (sig p - 1) * (p[sig p - 1] + W64 * val (List.drop (sig p - 1 + 1) p)) := Nat.mul_le_mul_left _ h1
    _ ≤ val p := by omega

/-- The number of significant limbs is determined by the value. -/
theorem sig_le_of_lt {p : List Nat} {n : Nat} (h : val p < W64 ^ n) : sig p ≤ n := by
  by_contra hc
  have h1 := val_ge_sig (p := p) (by omega)
  have h2 : W64 ^ n ≤ W64 ^ (sig p - 1) := Nat.pow_le_pow_right (by decide) (by omega)
  omega

/-! ## Comparison -/

theorem val_reverse_lt {a b : List Nat} (ha : LOk a) (hb : LOk b) (hl : a.length = b.length) :
    cmpLoop a b = if val a.reverse < val b.reverse then -1 else if val a.reverse = val b.reverse then 0 else 1 := by
  induction a generalizing b with
  | nil =>
    cases b with
    | nil => simp [cmpLoop]
    | cons => simp at hl
  | cons x r ih =>
    cases b with
    | nil => simp at hl
    | cons y s =>
      simp only [List.length_cons, Nat.add_right_cancel_iff] at hl
      have h1 := val_lt ha.tail.reverse
      have h2 := val_lt hb.tail.reverse
      have h3 := ih ha.tail hb.tail hl
      rw [List.length_reverse] at h1 h2
      have e1 : val (x :: r).reverse = val r.reverse + W64 ^ s.length * x := by
        rw [List.reverse_cons, val_append, List.length_reverse, hl]; simp [val]
      have e2 : val (y :: s).reverse = val s.reverse + W64 ^ s.length * y := by
        rw [List.reverse_cons, val_append, List.length_reverse]; simp [val]
      rw [cmpLoop, e1, e2]
      rw [hl] at h1
      clear e1 e2
      generalize W64 ^ s.length = k at *
      by_cases hxy : x > y
      · rw [if_pos hxy]
        have : k * (y + 1) ≤ k * x := Nat.mul_le_mul_left _ hxy
        rw [Nat.mul_add] at this
        rw [if_neg (by omega), if_neg (by omega)]
      · rw [if_neg hxy]
        by_cases hyx : x < y
        · rw [if_pos hyx]
          have : k * (x + 1) ≤ k * y := Nat.mul_le_mul_left _ hyx
          rw [Nat.mul_add] at this
          rw [if_pos (by omega)]
        · have : x = y := by omega
          subst this
          rw [if_neg (by omega), h3]
          simp only [Nat.add_lt_add_iff_right, Nat.add_right_cancel_iff]

/-! ## Addition -/

theorem carryUp_val {p : List Nat} (hp : LOk p) : ∀ {c : Nat}, c ≤ 1 → val (carryUp c p) = c + val p ∧ LOk (carryUp c p) ∧
    p.length ≤ (carryUp c p).length ∧ (c + val p < W64 ^ p.length → (carryUp c p).length = p.length) ∧ (carryUp c p).length ≤ p.length + 1 := by
  induction p with
  | nil =>
    intro c hc
    match c with
    | 0 => simp [carryUp, val, LOk.nil]
    | 1 => simp [carryUp, val]; exact LOk.cons (by decide) LOk.nil
  | cons x r ih =>
    intro c hc
    have hx := hp.head
    match c, hc with
    | 0, _ => simp [carryUp, hp]
    | 1, _ =>
      have hb : (if (x + (0 + 1)) % W64 < 0 + 1 then 1 else 0) ≤ 1 := by split <;> omega
      obtain ⟨h1, h2, h3, h4, h5⟩ := ih hp.tail hb
      rw [carryUp, val, val, h1]
      refine ⟨?_, LOk.cons (Nat.mod_lt _ (by decide)) h2, by simpa using h3, ?_, by simpa using h5⟩
      · split <;> omega
      · intro hlt
        rw [List.length_cons, List.length_cons, h4]
        rw [List.length_cons, pow_succ] at hlt
        generalize W64 ^ r.length = k at *
        split <;> omega

theorem addLoop_val {o p : List Nat} (ho : LOk o) (hp : LOk p) (hl : o.length ≤ p.length) : ∀ {c : Nat}, c ≤ 1 →
    val (addLoop c o p) = c + val o + val p ∧ LOk (addLoop c o p) ∧ p.length ≤ (addLoop c o p).length ∧
    (c + val o + val p < W64 ^ p.length → (addLoop c o p).length = p.length) ∧ (addLoop c o p).length ≤ p.length + 1 := by
  induction o generalizing p with
  | nil =>
    intro c hc
    obtain ⟨h1, h2, h3, h4, h5⟩ := carryUp_val hp hc
    rw [addLoop]
    · refine ⟨by rw [h1]; simp [val], h2, h3, by simpa [val] using h4, h5⟩
  | cons y os ih =>
    intro c hc
    cases p with
    | nil => simp at hl
    | cons x xs =>
      have hx := hp.head
      have hy := ho.head
      have hb : (if (x + c) % W64 < c then 1 else 0) + (if ((x + c) % W64 + y) % W64 < y then 1 else 0) ≤ 1 := by
        split <;> split <;> omega
      obtain ⟨h1, h2, h3, h4, h5⟩ := ih ho.tail hp.tail (by simpa using hl) hb
      rw [addLoop]
      simp only [val]
      rw [h1]
      refine ⟨?_, LOk.cons (Nat.mod_lt _ (by decide)) h2, by simpa using h3, ?_, by simpa using h5⟩
      · split <;> split <;> omega
      · intro hlt
        rw [List.length_cons, List.length_cons, h4]
        rw [List.length_cons, pow_succ] at hlt
        generalize W64 ^ xs.length = k at *
        split <;> split <;> omega

/-! ## Subtraction -/

theorem borrowUp_val {d : List Nat} (hd : LOk d) : ∀ {c : Nat}, c ≤ 1 → c ≤ val d →
    ∃ r, borrowUp c d = some r ∧ val r + c = val d ∧ LOk r ∧ r.length = d.length := by
  induction d with
  | nil =>
    intro c hc hv
    have : c = 0 := by simpa [val] using hv
    subst this
    exact ⟨[], by simp [borrowUp], by simp, LOk.nil, rfl⟩
  | cons x xs ih =>
    intro c hc hv
    have hx := hd.head
    cases c with
    | zero => exact ⟨x :: xs, by simp [borrowUp], by simp, hd, rfl⟩
    | succ c =>
      rw [val] at hv
      rw [borrowUp]
      have e : (x + W64 - (c + 1)) % W64 + (c + 1) = x + W64 * (if x < c + 1 then 1 else 0) := by split <;> omega
      have e2 : (if x < c + 1 then 1 else 0) ≤ 1 := by split <;> omega
      have hz := Nat.mod_lt (x + W64 - (c + 1)) (show 0 < W64 by decide)
      generalize (if x < c + 1 then 1 else 0) = z at *
      generalize (x + W64 - (c + 1)) % W64 = t at *
      obtain ⟨r, h1, h2, h3, h4⟩ := ih hd.tail (c := z) e2 (by omega)
      refine ⟨t :: r, ?_, ?_, LOk.cons hz h3, by simp [h4]⟩
      · simp only [h1, Option.bind_eq_bind, Option.bind_some, Option.pure_def]
      · rw [val, val, ← h2]
        omega

theorem sub_step {x y c : Nat} (hx : x < W64) (hy : y < W64) (hc : c ≤ 1) :
    ((x + W64 - c) % W64 + W64 - y) % W64 + c + y = x + W64 * ((if (x + W64 - c) % W64 < y then 1 else 0) + if x < c then 1 else 0) ∧
    ((if (x + W64 - c) % W64 < y then 1 else 0) + if x < c then 1 else 0) ≤ 1 := by
  by_cases h : x < c
  · have e : (x + W64 - c) % W64 = W64 - 1 := by omega
    rw [e, if_pos h, if_neg (by omega)]
    omega
  · have e : (x + W64 - c) % W64 = x - c := by omega
    rw [e, if_neg h]
    by_cases h2 : x - c < y
    · rw [if_pos h2]; omega
    · rw [if_neg h2]; omega

theorem subLoop_val {s d : List Nat} (hs : LOk s) (hd : LOk d) : ∀ {c : Nat}, c ≤ 1 → c + val s ≤ val d → s.length ≤ d.length →
    ∃ r, subLoop c s d = some r ∧ val r + c + val s = val d ∧ LOk r ∧ r.length = d.length := by
  induction s generalizing d with
  | nil =>
    intro c hc hv _
    obtain ⟨r, h1, h2, h3, h4⟩ := borrowUp_val hd hc (by simpa [val] using hv)
    refine ⟨r, ?_, by simpa [val] using h2, h3, h4⟩
    rw [subLoop]
    · exact h1
  | cons y ss ih =>
    intro c hc hv hl
    cases d with
    | nil => simp at hl
    | cons x xs =>
      have hx := hd.head
      have hy := hs.head
      rw [val, val] at hv
      obtain ⟨e1, e2⟩ := sub_step hx hy hc
      rw [subLoop]
      rw [val, val]
      generalize (if (x + W64 - c) % W64 < y then 1 else 0) + (if x < c then 1 else 0) = z at *
      have hz := Nat.mod_lt ((x + W64 - c) % W64 + W64 - y) (show 0 < W64 by decide)
      generalize ((x + W64 - c) % W64 + W64 - y) % W64 = t at *
      obtain ⟨r, h1, h2, h3, h4⟩ := ih hs.tail hd.tail (c := z) e2 (by omega) (by simpa using hl)
      refine ⟨t :: r, ?_, ?_, LOk.cons hz h3, by simp [h4]⟩
      · simp only [h1, Option.bind_eq_bind, Option.bind_some, Option.pure_def]
      · rw [val, ← h2]
        omega

/-! ## Multiplication -/

theorem muladdc_eq {s b c d : Nat} (hs : s < W64) (hb : b < W64) (hc : c < W64) (hd : d < W64) :
    (muladdc s b c d).1 + W64 * (muladdc s b c d).2 = s * b + c + d ∧ (muladdc s b c d).1 < W64 ∧ (muladdc s b c d).2 < W64 := by
  have h : s * b ≤ (W64 - 1) * (W64 - 1) := Nat.mul_le_mul (by omega) (by omega)
  simp only [muladdc]
  generalize s * b = m at *
  omega

theorem mulFinish_val {d : List Nat} (hd : LOk d) : ∀ {c : Nat}, c < W64 → d ≠ [] → c + val d < W64 ^ d.length →
    ∃ r, mulFinish c d = some r ∧ val r = c + val d ∧ LOk r ∧ r.length = d.length := by
  induction d with
  | nil => intro c _ h; exact absurd rfl h
  | cons x xs ih =>
    intro c hc _ hv
    have hx := hd.head
    rw [val, List.length_cons, pow_succ] at hv
    rw [mulFinish]
    by_cases hlt : (x + c) % W64 < c
    · have hne : xs ≠ [] := by
        rintro rfl
        simp only [val, List.length_nil, pow_zero] at hv
        omega
      obtain ⟨r, h1, h2, h3, h4⟩ := ih hd.tail (c := 1) (by decide) hne (by
        generalize W64 ^ xs.length = k at *
        omega)
      refine ⟨(x + c) % W64 :: r, ?_, ?_, LOk.cons (Nat.mod_lt _ (by decide)) h3, by simp [h4]⟩
      · simp only [if_pos hlt, h1, Option.bind_eq_bind, Option.bind_some, Option.pure_def]
      · rw [val, val, h2]; omega
    · refine ⟨(x + c) % W64 :: xs, by simp only [if_neg hlt], ?_, LOk.cons (Nat.mod_lt _ (by decide)) hd.tail, by simp⟩
      rw [val, val]; omega

theorem mulLoop_val {b : Nat} (hb : b < W64) {s d : List Nat} (hs : LOk s) (hd : LOk d) : ∀ {c : Nat}, c < W64 → s.length < d.length →
    c + b * val s + val d < W64 ^ d.length → ∃ r, mulLoop b c s d = some r ∧ val r = c + b * val s + val d ∧ LOk r ∧ r.length = d.length := by
  induction s generalizing d with
  | nil =>
    intro c hc hl hv
    obtain ⟨r, h1, h2, h3, h4⟩ := mulFinish_val hd hc (by rintro rfl; simp at hl) (by simpa [val] using hv)
    refine ⟨r, ?_, by simpa [val] using h2, h3, h4⟩
    rw [mulLoop]
    · exact h1
  | cons y ss ih =>
    intro c hc hl hv
    cases d with
    | nil => simp at hl
    | cons x xs =>
      have hx := hd.head
      have hy := hs.head
      obtain ⟨e1, e2, e3⟩ := muladdc_eq hy hb hc hx
      rw [val, val, List.length_cons, pow_succ] at hv
      have em : b * (y + W64 * val ss) = y * b + W64 * (b * val ss) := by ring
      rw [em] at hv
      obtain ⟨r, h1, h2, h3, h4⟩ := ih hs.tail hd.tail (c := (muladdc y b c x).2) e3 (by simpa using hl) (by
        generalize W64 ^ xs.length = k at *
        generalize b * val ss = u at *
        generalize y * b = v at *
        omega)
      refine ⟨(muladdc y b c x).1 :: r, ?_, ?_, LOk.cons e2 h3, by simp [h4]⟩
      · rw [mulLoop]; simp only [h1, Option.bind_eq_bind, Option.bind_some, Option.pure_def]
      · rw [val, val, val, h2, em]
        generalize b * val ss = u at *
        generalize y * b = v at *
        omega

/-- `mpi_mul_hlp`: `d += s * b`, if the sum fits and `d` is longer than `s`. -/
theorem mulHlp_val {b : Nat} (hb : b < W64) {s d : List Nat} (hs : LOk s) (hd : LOk d) (hl : s.length < d.length)
    (hv : b * val s + val d < W64 ^ d.length) : ∃ r, mulHlp s d b = some r ∧ val r = b * val s + val d ∧ LOk r ∧ r.length = d.length := by
  obtain ⟨r, h1, h2, h3, h4⟩ := mulLoop_val hb hs hd (c := 0) (by decide) hl (by simpa using hv)
  exact ⟨r, h1, by simpa using h2, h3, h4⟩

theorem LOk.getD {p : List Nat} (h : LOk p) (i : Nat) : p.getD i 0 < W64 := by
  rw [List.getD_eq_getElem?_getD]
  cases hq : p[i]? with
  | none => simp
  | some x => exact h x (List.mem_of_getElem? hq)

theorem val_take_succ {p : List Nat} {j : Nat} (hj : j < p.length) : val (p.take (j + 1)) = val (p.take j) + W64 ^ j * p.getD j 0 := by
  rw [List.take_succ_eq_append_getElem hj, val_append, List.length_take, Nat.min_eq_left (by omega), List.getD_eq_getElem?_getD,
    List.getElem?_eq_getElem hj]
  simp [val]

/-- The rows of the schoolbook multiplication, from the highest one. -/
theorem mulRows_val {s b : List Nat} (hs : LOk s) (hb : LOk b) : ∀ {j : Nat} {x : List Nat}, LOk x → j ≤ b.length → s.length + j ≤ x.length →
    val (b.take j) * val s + val x < W64 ^ x.length →
    ∃ r, mulRows s b j x = some r ∧ val r = val (b.take j) * val s + val x ∧ LOk r ∧ r.length = x.length := by
  intro j
  induction j with
  | zero => intro x hx _ _ _; exact ⟨x, rfl, by simp [val], hx, rfl⟩
  | succ j ih =>
    intro x hx hj hl hv
    rw [val_take_succ (by omega)] at hv
    have hxs := val_take_drop x j (by omega)
    have hlt := val_lt (hx.take j)
    rw [List.length_take, Nat.min_eq_left (by omega)] at hlt
    have hpow : W64 ^ x.length = W64 ^ j * W64 ^ (x.length - j) := by rw [← pow_add]; congr 1; omega
    have hrow : b.getD j 0 * val s + val (x.drop j) < W64 ^ (x.drop j).length := by
      rw [List.length_drop]
      have hm : W64 ^ j * (b.getD j 0 * val s + val (x.drop j)) < W64 ^ j * W64 ^ (x.length - j) := by
        rw [← hpow]
        calc W64 ^ j * (b.getD j 0 * val s + val (x.drop j)) = W64 ^ j * b.getD j 0 * val s + W64 ^ j * val (x.drop j) := by ring
          _ ≤ (val (b.take j) + W64 ^ j * b.getD j 0) * val s + val x := by
            rw [Nat.add_mul]; omega
          _ < _ := hv
      exact Nat.lt_of_mul_lt_mul_left hm
    obtain ⟨y, y1, y2, y3, y4⟩ := mulHlp_val (hb.getD j) hs (hx.drop j) (by rw [List.length_drop]; omega) hrow
    have hlen : (x.take j ++ y).length = x.length := by rw [List.length_append, List.length_take, y4, List.length_drop]; omega
    have hval : val (x.take j ++ y) = W64 ^ j * b.getD j 0 * val s + val x := by
      rw [val_append, List.length_take, Nat.min_eq_left (by omega), y2, hxs]; ring
    obtain ⟨r, r1, r2, r3, r4⟩ := ih (x := x.take j ++ y) ((hx.take j).append y3) (by omega) (by rw [hlen]; omega) (by
      rw [hlen, hval]
      calc val (b.take j) * val s + (W64 ^ j * b.getD j 0 * val s + val x) = (val (b.take j) + W64 ^ j * b.getD j 0) * val s + val x := by ring
        _ < _ := hv)
    refine ⟨r, ?_, ?_, r3, by rw [r4, hlen]⟩
    · rw [mulRows, y1]; exact r1
    · rw [r2, hval, val_take_succ (by omega)]; ring

end Verif.Bignum
