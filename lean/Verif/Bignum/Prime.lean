import Verif.Bignum.Lengths
import Verif.Bignum.ModelPrime
import Verif.Bignum.Sprp

/-!
# The primality test follows the Miller-Rabin test
-/

namespace Verif.Bignum

open Verif Verif.Tdp

/-! ## Computations that call the generator -/

theorem Run.bind_apply {α β : Type} (x : Run α) (f : α → Run β) (i : Nat) : (x >>= f) i = Run.next (x i) f := rfl
@[simp] theorem Run.next_ok {α β : Type} (a : α) (j : Nat) (f : α → Run β) : Run.next (.ok a, j) f = f a j := rfl
@[simp] theorem Run.next_err {α β : Type} (e : Err) (j : Nat) (f : α → Run β) : Run.next (.err e, j) f = (.err e, j) := rfl
@[simp] theorem Run.next_ub {α β : Type} (j : Nat) (f : α → Run β) : Run.next (.ub, j) f = (.ub, j) := rfl
@[simp] theorem Run.of_apply {α : Type} (x : Out α) (i : Nat) : Run.of x i = (x, i) := rfl
theorem Run.pure_apply {α : Type} (a : α) (i : Nat) : (pure a : Run α) i = (.ok a, i) := rfl

/-- A generator that returns as many bytes as it is asked for, or fails. -/
def Rng.Ok (g : Rng) : Prop := ∀ i n, (∃ b, g i n = .ok b ∧ b.length = n) ∨ ∃ e, g i n = .err e

theorem charsToLimbs_of_le {a k : Nat} (h : a ≤ k * 8) : charsToLimbs a ≤ k := by
  unfold charsToLimbs; split <;> omega

theorem fillRandom_spec {g : Rng} (hg : g.Ok) {X : Mpi} (hX : X.WF) {k : Nat} (hk : k * 8 ≤ mpiMaxSize) (i : Nat) :
    (∃ b R, g i (k * 8) = .ok b ∧ b.length = k * 8 ∧ fillRandom g X (k * 8) i = (.ok R, i + 1) ∧ R.WF ∧ R.mag = beNat b ∧ R.neg = false ∧ R.p ≠ [] ∧
      R.p.length ≤ max 1 (max k X.p.length)) ∨
    ∃ e, g i (k * 8) = .err e ∧ fillRandom g X (k * 8) i = (.err e, i + 1) := by
  have e1 : fillRandom g X (k * 8) i = Run.next (g i (k * 8), i + 1) fun b => Run.of (readBinary X b) := by
    unfold fillRandom
    rw [if_neg (by omega)]
    rfl
  have hk' : k ≤ 128 := by unfold mpiMaxSize at hk; omega
  rcases hg i (k * 8) with ⟨b, h1, h2⟩ | ⟨e, h1⟩
  · left
    have hl : (b.dropWhile (· == 0)).length ≤ k * 8 := by
      rw [← h2]; exact (List.dropWhile_sublist _).length_le
    obtain ⟨R, r1, r2, r3, r4, r5⟩ := (readBinary_spec hX b).1 (by unfold maxLimbs; omega)
    refine ⟨b, R, h1, h2, ?_, r2, r3, r4, ?_, ?_⟩
    · rw [e1, h1, Run.next_ok, Run.of_apply, r1]
    · intro h0; rw [h0, List.length_nil] at r5; omega
    · have := charsToLimbs_of_le hl
      omega
  · right
    exact ⟨e, h1, by rw [e1, h1, Run.next_err]⟩

/-! ## Trial division -/

theorem smallPrimes_prime : ∀ q ∈ smallPrimes, q.Prime := by
  have : ∀ q ∈ smallPrimes, q ∈ (List.range 1000).filter (fun n => decide (2 ≤ n) && (List.range n).all (fun d => decide (d < 2) || n % d != 0)) := by
    decide +kernel
  intro q hq
  have h := this q hq
  simp only [List.mem_filter, Bool.and_eq_true, decide_eq_true_eq, List.all_eq_true, List.mem_range, Bool.or_eq_true, bne_iff_ne, ne_eq] at h
  rw [Nat.prime_def_lt]
  refine ⟨h.2.1, fun d hd hdv => ?_⟩
  rcases h.2.2 d hd with h1 | h1
  · have : d ≠ 0 := by rintro rfl; rw [Nat.zero_dvd] at hdv; omega
    omega
  · exact absurd (Nat.mod_eq_zero_of_dvd hdv) h1

/-- The table contains every odd number below 1009 without a divisor in it. -/
theorem smallPrimes_complete {q : Nat} (hq : q.Prime) (h2 : q ≠ 2) (h : q < 1009) : q ∈ smallPrimes := by
  have : ∀ q ∈ List.range 1009, q < 2 ∨ q = 2 ∨ q ∈ smallPrimes ∨ (List.range q).any (fun d => decide (2 ≤ d) && q % d == 0) = true := by
    decide +kernel
  rcases this q (List.mem_range.2 h) with h1 | h1 | h1 | h1
  · have := hq.two_le; omega
  · exact absurd h1 h2
  · exact h1
  · rw [List.any_eq_true] at h1
    obtain ⟨d, hd, h3⟩ := h1
    simp only [Bool.and_eq_true, decide_eq_true_eq, beq_iff_eq] at h3
    rw [List.mem_range] at hd
    have := (Nat.dvd_prime hq).1 (Nat.dvd_of_mod_eq_zero h3.2)
    omega

theorem smallPrimes_bounds : ∀ q ∈ smallPrimes, 3 ≤ q ∧ q ≤ 997 := by decide +kernel
theorem smallPrimes_sorted : smallPrimes.Pairwise (· < ·) := by decide +kernel

/-- The loop of the trial division. -/
theorem smallLoop_spec {X : Mpi} (hX : X.WF) (hn : X.neg = false) (h0 : 1 < X.mag) : ∀ (l : List Nat), (∀ q ∈ l, 3 ≤ q ∧ q ≤ 997) → l.Pairwise (· < ·) →
    (smallLoop X l = .ok true ∧ (∃ q ∈ l, X.mag ≤ q ∧ ∀ r ∈ l, r < q → ¬ r ∣ X.mag)) ∨
    (smallLoop X l = .ok false ∧ (∀ q ∈ l, q < X.mag ∧ ¬ q ∣ X.mag)) ∨
    (smallLoop X l = .err .notAcceptable ∧ ∃ q ∈ l, q ∣ X.mag ∧ q < X.mag) := by
  intro l
  induction l with
  | nil => intro _ _; right; left; exact ⟨rfl, by simp⟩
  | cons q l ih =>
    intro hb hs
    have hq := hb q List.mem_cons_self
    rw [smallLoop, cmpInt_spec hX (by rw [Int.natAbs_natCast]; omega), toInt_pos hn]
    rw [List.pairwise_cons] at hs
    by_cases hle : X.mag ≤ q
    · left
      rw [if_pos (by unfold sgn; split_ifs <;> omega)]
      refine ⟨rfl, q, List.mem_cons_self, hle, fun r hr hrq => ?_⟩
      rcases List.mem_cons.1 hr with rfl | hr
      · omega
      · have := hs.1 r hr; omega
    · rw [if_neg (by unfold sgn; split_ifs <;> omega)]
      have hm := modInt_spec hX (b := (q : Int)) (by omega) (by omega) (by omega)
      rw [toInt_pos hn] at hm
      have hv : ((X.mag : Int) % (q : Int)).toNat = X.mag % q := by rw [← Int.natCast_mod, Int.toNat_natCast]
      rw [hm, hv, Out.bind_ok]
      by_cases hd : X.mag % q = 0
      · right; right
        rw [if_pos hd]
        exact ⟨rfl, q, List.mem_cons_self, Nat.dvd_of_mod_eq_zero hd, by omega⟩
      · rw [if_neg hd]
        have hnd : ¬ q ∣ X.mag := fun h => hd (Nat.mod_eq_zero_of_dvd h)
        rcases ih (fun r hr => hb r (List.mem_cons_of_mem _ hr)) hs.2 with ⟨h1, t, ht, h2, h3⟩ | ⟨h1, h2⟩ | ⟨h1, t, ht, h2⟩
        · left
          refine ⟨h1, t, List.mem_cons_of_mem _ ht, h2, fun r hr hrt => ?_⟩
          rcases List.mem_cons.1 hr with rfl | hr
          · exact hnd
          · exact h3 r hr hrt
        · right; left
          refine ⟨h1, fun r hr => ?_⟩
          rcases List.mem_cons.1 hr with rfl | hr
          · exact ⟨by omega, hnd⟩
          · exact h2 r hr
        · right; right
          exact ⟨h1, t, List.mem_cons_of_mem _ ht, h2⟩

/-- What the trial division finds out about a number above 1. -/
theorem checkSmall_spec {X : Mpi} (hX : X.WF) (hn : X.neg = false) (h0 : 1 < X.mag) :
    (checkSmall X = .ok true ∧ X.mag.Prime ∧ X.mag % 2 = 1 ∧ X.mag ≤ 997) ∨
    (checkSmall X = .ok false ∧ X.mag % 2 = 1 ∧ 997 < X.mag ∧ ∀ q, q.Prime → q < 1009 → ¬ q ∣ X.mag) ∨
    (checkSmall X = .err .notAcceptable ∧ (X.mag = 2 ∨ ∃ q, q.Prime ∧ q ≤ 997 ∧ q ∣ X.mag ∧ q < X.mag)) := by
  have hne : X.p ≠ [] := nonnil_of_mag (by omega)
  unfold checkSmall
  rw [read_low hne, Out.bind_ok, odd_limb hX]
  by_cases hodd : X.mag % 2 = 0
  · right; right
    rw [if_pos hodd]
    refine ⟨rfl, ?_⟩
    by_cases h2 : X.mag = 2
    · exact Or.inl h2
    · right
      exact ⟨2, Nat.prime_two, by decide, Nat.dvd_of_mod_eq_zero hodd, by omega⟩
  · rw [if_neg hodd]
    rcases smallLoop_spec hX hn h0 smallPrimes smallPrimes_bounds smallPrimes_sorted with ⟨h1, q, hq, h2, h3⟩ | ⟨h1, h2⟩ | ⟨h1, q, hq, h2, h3⟩
    · left
      have hb := smallPrimes_bounds q hq
      refine ⟨h1, ?_, by omega, by omega⟩
      by_contra hnp
      obtain hm := Nat.minFac_prime (n := X.mag) (by omega)
      have hlt : X.mag.minFac < X.mag := by
        have hle := Nat.minFac_le (n := X.mag) (by omega)
        rcases Nat.lt_or_ge X.mag.minFac X.mag with h | h
        · exact h
        · exact absurd (by rw [le_antisymm h hle]; exact hm) hnp
      have hmem := smallPrimes_complete hm (by
        intro h
        have := Nat.minFac_dvd X.mag
        rw [h] at this
        omega) (by omega)
      exact h3 _ hmem (by omega) (Nat.minFac_dvd _)
    · right; left
      have h997 := h2 997 (by decide +kernel)
      refine ⟨h1, by omega, h997.1, fun q hq hlt hd => ?_⟩
      by_cases hq2 : q = 2
      · subst hq2; omega
      · exact (h2 q (smallPrimes_complete hq hq2 hlt)).2 hd
    · right; right
      exact ⟨h1, Or.inr ⟨q, smallPrimes_prime q hq, (smallPrimes_bounds q hq).2, h2, h3⟩⟩

/-! ## The choice of a base -/

/-- The number that the bytes of a call stand for, cut to the length of `w`. -/
def cutVal (w a : Nat) : Nat := a / 2 ^ (bitlen a - bitlen w)

theorem cutTo_spec {A W : Mpi} (hA : A.WF) (hW : W.WF) (hn : A.neg = false) (hne : A.p ≠ []) :
    ∃ R, cutTo A W = .ok R ∧ R.WF ∧ R.mag = cutVal W.mag A.mag ∧ R.neg = false ∧ R.p ≠ [] ∧ R.p.length ≤ A.p.length := by
  unfold cutTo cutVal
  rw [bitlenL_spec hA, bitlenL_spec hW]
  split
  · obtain ⟨R, r1, r2, r3, r4, -⟩ := shiftR_spec hA (bitlen A.mag - bitlen W.mag)
    have := shiftR_up r1
    have hl := List.length_pos_iff.2 hne
    exact ⟨R, r1, r2, r3, r4 hn, this.2 hne, by omega⟩
  · exact ⟨A, rfl, hA, by rw [Nat.sub_eq_zero_of_le (by omega), pow_zero, Nat.div_one], hn, hne, le_refl _⟩

/-- A base the test may use for `n`. -/
def Usable (n a : Nat) : Prop := 1 < a ∧ a < n - 1

instance (n a : Nat) : Decidable (Usable n a) := by unfold Usable; infer_instance

/-- The base that a call of the generator stands for. -/
def baseOf (n : Nat) (b : Bytes) : Nat := cutVal (n - 1) (beNat b)

/-- The calls `i, …, i + c - 1` give numbers that cannot be used. -/
def Useless (g : Rng) (sz n i c : Nat) : Prop := ∀ u < c, ∃ b, g (i + u) sz = .ok b ∧ b.length = sz ∧ ¬ Usable n (baseOf n b)

/-- Of the calls `i, …, i + c - 1` the call before `j` is the first that gives a number that can be used, and it gives `a`. -/
def Picks (g : Rng) (sz n c i a j : Nat) : Prop :=
  ∃ t < c, Useless g sz n i t ∧ (∃ b, g (i + t) sz = .ok b ∧ b.length = sz ∧ baseOf n b = a) ∧ Usable n a ∧ j = i + t + 1

/-- One of the calls `i, …, j - 1` failed. -/
def Fails (g : Rng) (sz i : Nat) (e : Err) (j : Nat) : Prop := ∃ t, i ≤ t ∧ t + 1 = j ∧ g t sz = .err e

theorem useless_cons {g : Rng} {sz n i c : Nat} {b : Bytes} (hb : g i sz = .ok b) (hl : b.length = sz) (hu : ¬ Usable n (baseOf n b))
    (h : Useless g sz n (i + 1) c) : Useless g sz n i (c + 1) := by
  intro u hu'
  cases u with
  | zero => exact ⟨b, hb, hl, hu⟩
  | succ u =>
    obtain ⟨b', h1⟩ := h u (by omega)
    exact ⟨b', by rw [show i + (u + 1) = i + 1 + u by omega]; exact h1⟩

theorem picks_cons {g : Rng} {sz n i c a j : Nat} {b : Bytes} (hb : g i sz = .ok b) (hl : b.length = sz) (hu : ¬ Usable n (baseOf n b))
    (h : Picks g sz n c (i + 1) a j) : Picks g sz n (c + 1) i a j := by
  obtain ⟨t, h1, h2, ⟨b', h3⟩, h4, h5⟩ := h
  exact ⟨t + 1, by omega, useless_cons hb hl hu h2, ⟨b', by rw [show i + (t + 1) = i + 1 + t by omega]; exact h3⟩, h4, by omega⟩

variable {g : Rng} {X : Mpi}

/-- `W = n - 1`. -/
structure IsW (W : Mpi) (n : Nat) : Prop where
  wf : W.WF
  neg : W.neg = false
  mag : W.mag = n - 1

theorem drawBase_spec (hg : g.Ok) {W : Mpi} {n : Nat} (hW : IsW W n) {k : Nat} (hk : k * 8 ≤ mpiMaxSize) (hk1 : 1 ≤ k) : ∀ (c : Nat) {A : Mpi} (i : Nat), A.WF →
    A.p.length ≤ k + 1 →
    (∃ R j, drawBase g W (k * 8) c A i = (.ok R, j) ∧ R.WF ∧ R.neg = false ∧ R.p ≠ [] ∧ R.p.length ≤ k + 1 ∧ Picks g (k * 8) n c i R.mag j) ∨
    (drawBase g W (k * 8) c A i = (.err .notAcceptable, i + c + 1) ∧ Useless g (k * 8) n i c) ∨
    (∃ e j, drawBase g W (k * 8) c A i = (.err e, j) ∧ Fails g (k * 8) i e j) := by
  intro c
  induction c with
  | zero =>
    intro A i hA hl
    rw [drawBase, Run.bind_apply]
    rcases fillRandom_spec hg hA hk i with ⟨b, R, b1, b2, r1, r2, r3, r4, r5, r6⟩ | ⟨e, h1, h2⟩
    · right; left
      obtain ⟨S, s1, -⟩ := cutTo_spec r2 hW.wf r4 r5
      rw [r1, Run.next_ok, Run.bind_apply, Run.of_apply, s1, Run.next_ok, Run.of_apply]
      exact ⟨rfl, fun u hu => by omega⟩
    · right; right
      rw [h2]
      exact ⟨e, i + 1, rfl, i, le_refl _, rfl, h1⟩
  | succ c ih =>
    intro A i hA hl
    rw [drawBase, Run.bind_apply]
    rcases fillRandom_spec hg hA hk i with ⟨b, R, b1, b2, r1, r2, r3, r4, r5, r6⟩ | ⟨e, h1, h2⟩
    · obtain ⟨S, s1, s2, s3, s4, s5, s6⟩ := cutTo_spec r2 hW.wf r4 r5
      rw [r1, Run.next_ok, Run.bind_apply, Run.of_apply, s1, Run.next_ok]
      rw [cmpMpi_spec s2 hW.wf, cmpInt_spec s2 (by decide), toInt_pos s4, toInt_pos hW.neg]
      have hb : S.mag = baseOf n b := by rw [s3, r3, hW.mag]; rfl
      have hm := hW.mag
      by_cases hu : Usable n (baseOf n b)
      · left
        have hu' := hu
        rw [← hb] at hu'
        unfold Usable at hu'
        rw [if_neg (by
          push Not
          constructor <;> unfold sgn <;> split_ifs <;> omega)]
        exact ⟨S, i + 1, rfl, s2, s4, s5, by omega, 0, by omega, fun u hu => by omega, ⟨b, b1, b2, hb.symm⟩, hb ▸ hu, rfl⟩
      · have hu' := hu
        rw [← hb] at hu'
        unfold Usable at hu'
        rw [if_pos (by
          by_cases h1 : 1 < S.mag
          · left; unfold sgn; split_ifs <;> omega
          · right; unfold sgn; split_ifs <;> omega)]
        rcases ih (i + 1) s2 (by omega) with ⟨T, j, t1, t2, t3, t4, t5, t6⟩ | ⟨t1, t2⟩ | ⟨e, j, t1, t, t2, t3⟩
        · left
          exact ⟨T, j, t1, t2, t3, t4, t5, picks_cons b1 b2 hu t6⟩
        · right; left
          exact ⟨by rw [t1, show i + 1 + c + 1 = i + (c + 1) + 1 by omega], useless_cons b1 b2 hu t2⟩
        · right; right
          exact ⟨e, j, t1, t, by omega, t3⟩
    · right; right
      rw [h2]
      exact ⟨e, i + 1, rfl, i, le_refl _, rfl, h1⟩

theorem firstDraw_spec (hg : g.Ok) {W : Mpi} {n : Nat} (hW : IsW W n) {k : Nat} (hk : k * 8 ≤ mpiMaxSize) (hk1 : 1 ≤ k) {A : Mpi} (hA : A.WF)
    (hl : A.p.length ≤ k + 1) (i : Nat) :
    (∃ b R, g i (k * 8) = .ok b ∧ firstDraw g W A (k * 8) i = (.ok R, i + 1) ∧ R.WF ∧ R.p.length ≤ k + 1) ∨
    (∃ e, firstDraw g W A (k * 8) i = (.err e, i + 1) ∧ g i (k * 8) = .err e) := by
  unfold firstDraw
  rw [Run.bind_apply]
  rcases fillRandom_spec hg hA hk i with ⟨b, R, b1, b2, r1, r2, r3, r4, r5, r6⟩ | ⟨e, h1, h2⟩
  · left
    have h3 : ∃ S, (if cmpMpi R W ≥ 0 then shiftR R (bitlenL R - bitlenL W + 1) else .ok R) = .ok S ∧ S.WF ∧ S.p ≠ [] ∧ S.p.length ≤ k + 1 := by
      split
      · obtain ⟨S, s1, s2, -⟩ := shiftR_spec r2 (bitlenL R - bitlenL W + 1)
        have := shiftR_up s1
        exact ⟨S, s1, s2, this.2 r5, by omega⟩
      · exact ⟨R, rfl, r2, r5, by omega⟩
    obtain ⟨S, s1, s2, s3, s4⟩ := h3
    rw [r1, Run.next_ok, Run.bind_apply, Run.of_apply, s1, Run.next_ok, Run.bind_apply, Run.of_apply, read_low s3, Run.next_ok, Run.of_apply]
    refine ⟨b, _, b1, rfl, ⟨?_, ?_⟩, ?_⟩
    · intro x hx
      rcases List.mem_or_eq_of_mem_set hx with hx | rfl
      · exact s2.ok x hx
      · have hS : S.p.getD 0 0 < W64 := by
          cases hp : S.p with
          | nil => exact absurd hp s3
          | cons y r => exact s2.ok y (by rw [hp]; exact List.mem_cons_self)
        have := Nat.or_lt_two_pow (n := 64) (x := S.p.getD 0 0) (y := 3) (by norm_num at hS ⊢; exact hS) (by norm_num)
        norm_num at this ⊢
        exact this
    · rw [List.length_set]; exact s2.len
    · rw [List.length_set]; exact s4
  · right
    rw [h2]
    exact ⟨e, rfl, h1⟩

/-! ## A round -/

theorem sgn_zero_iff (z : Int) : sgn z = 0 ↔ z = 0 := by unfold sgn; split_ifs <;> simp <;> omega

/-- The squarings find -1 if it is among the powers. -/
theorem mrSquare_spec {X W : Mpi} (hX : X.WF) (hXn : X.neg = false) {n : Nat} (hn : X.mag = n) (hn3 : 3 < n) (hl : X.p.length ≤ 128) (hW : IsW W n) :
    ∀ (d : Nat) {A T : Mpi}, A.WF → A.neg = false → A.p ≠ [] → A.p.length ≤ X.p.length + 1 → A.mag < n → A.mag ≠ 1 → T.WF → T.p.length ≤ 300 →
    ∃ A' T', mrSquare X W d A T = .ok (A', T') ∧ A'.WF ∧ A'.neg = false ∧ A'.p.length ≤ X.p.length + 1 ∧ T'.WF ∧ T'.p.length ≤ 300 ∧
      (A'.mag = n - 1 ↔ ∃ r ≤ d, A.mag ^ 2 ^ r % n = n - 1) := by
  have hX1 : 1 ≤ X.p.length := List.length_pos_iff.2 (nonnil_of_mag (by omega))
  intro d
  induction d with
  | zero =>
    intro A T hA hAn hAne hAl hlt h1 hT hTl
    refine ⟨A, T, rfl, hA, hAn, hAl, hT, hTl, ?_⟩
    constructor
    · intro h; exact ⟨0, le_refl _, by rw [pow_zero, pow_one, Nat.mod_eq_of_lt hlt, h]⟩
    · rintro ⟨r, hr, h⟩
      obtain rfl : r = 0 := by omega
      rwa [pow_zero, pow_one, Nat.mod_eq_of_lt hlt] at h
  | succ d ih =>
    intro A T hA hAn hAne hAl hlt h1 hT hTl
    have hWm := hW.mag
    rw [mrSquare, cmpMpi_spec hA hW.wf, toInt_pos hAn, toInt_pos hW.neg]
    by_cases hAW : A.mag = n - 1
    · rw [if_pos (by rw [sgn_zero_iff]; omega)]
      refine ⟨A, T, rfl, hA, hAn, hAl, hT, hTl, ?_⟩
      constructor
      · intro _; exact ⟨0, by omega, by rw [pow_zero, pow_one, Nat.mod_eq_of_lt hlt, hAW]⟩
      · intro _; exact hAW
    · rw [if_neg (by rw [sgn_zero_iff]; omega)]
      have hsA := sig_le A.p
      have hlA : limbs A.mag ≤ A.p.length := by
        have := sig_eq_limbs hA.ok
        unfold Mpi.mag; omega
      obtain ⟨S, s1, s2, s3, -⟩ := (mulMpi_spec hT (A := .ext A) hA (B := .ext A) hA).1 (by
        show limbs A.mag + limbs A.mag ≤ maxLimbs
        unfold maxLimbs; omega)
      have su := mulMpi_up s1
      have su1 : S.p.length = max T.p.length (max 1 (sig A.p + sig A.p)) := su.1
      have sn : S.neg = false := su.2 hAn hAn
      have hSm : S.mag = A.mag * A.mag := by
        have h := s3
        change S.toInt = A.toInt * A.toInt at h
        rw [toInt_pos sn, toInt_pos hAn] at h
        exact_mod_cast h
      have hX0 : 0 < X.toInt := by rw [toInt_pos hXn]; omega
      obtain ⟨B, b1, b2, b3, b4, b5⟩ := modMpi_spec hA (A := .ext S) s2 hX hX0 (by
        show S.p.length + 2 ≤ maxLimbs
        unfold maxLimbs; omega)
      have bu := modMpi_up hA (A := .ext S) s2 hX hX0 (by
        show S.p.length + 2 ≤ maxLimbs
        unfold maxLimbs; omega) b1
      have bn : B.neg = false := b5 sn
      have hBm : B.mag = A.mag ^ 2 % n := by
        have h := b3
        change B.toInt = S.toInt % X.toInt at h
        rw [toInt_pos bn, toInt_pos sn, toInt_pos hXn, hSm, hn] at h
        rw [pow_two]
        exact_mod_cast h
      have bne : B.p ≠ [] := by
        have h4 := b4 (show S.p ≠ [] from fun h0 => by rw [h0, List.length_nil] at su1; omega)
        intro h0
        rw [h0, List.length_nil] at h4
        omega
      have hBlt : B.mag < n := by rw [hBm]; exact Nat.mod_lt _ (by omega)
      have step : ∀ r, A.mag ^ 2 ^ (r + 1) % n = B.mag ^ 2 ^ r % n := fun r => by
        rw [hBm, ← Nat.pow_mod, ← pow_mul, pow_succ']
      rw [s1, Out.bind_ok, b1, Out.bind_ok, cmpInt_spec b2 (by decide), toInt_pos bn]
      by_cases hB1 : B.mag = 1
      · rw [if_pos (by rw [sgn_zero_iff]; omega)]
        refine ⟨B, S, rfl, b2, bn, by omega, s2, by omega, ?_⟩
        constructor
        · intro h; omega
        · rintro ⟨r, hr, h⟩
          cases r with
          | zero => rw [pow_zero, pow_one, Nat.mod_eq_of_lt hlt] at h; exact absurd h hAW
          | succ r => rw [step, hB1, one_pow, Nat.mod_eq_of_lt (by omega)] at h; omega
      · rw [if_neg (by rw [sgn_zero_iff]; omega)]
        obtain ⟨A', T', h1, h2, h3, h4, h5, h6, h7⟩ := ih (A := B) (T := S) b2 bn bne (by omega) hBlt hB1 s2 (by omega)
        refine ⟨A', T', h1, h2, h3, h4, h5, h6, h7.trans ?_⟩
        constructor
        · rintro ⟨r, hr, h⟩; exact ⟨r + 1, by omega, by rw [step]; exact h⟩
        · rintro ⟨r, hr, h⟩
          cases r with
          | zero => rw [pow_zero, pow_one, Nat.mod_eq_of_lt hlt] at h; exact absurd h hAW
          | succ r => exact ⟨r, by omega, by rw [← step]; exact h⟩

/-- What holds between the rounds. -/
structure MrInv (X : Mpi) (t : MrSt) : Prop where
  wA : t.A.WF
  lA : t.A.p.length ≤ X.p.length + 1
  wT : t.T.WF
  lT : t.T.p.length ≤ 300
  c : CacheOk X (some t.RR)

/-- The number under test. -/
structure IsX (X : Mpi) (n : Nat) : Prop where
  wf : X.WF
  neg : X.neg = false
  mag : X.mag = n
  odd : n % 2 = 1
  big : 3 < n
  len : X.p.length ≤ 128

theorem IsX.one_le (h : IsX X n) : 1 ≤ X.p.length := List.length_pos_iff.2 (nonnil_of_mag (by rw [h.mag]; have := h.big; omega))

theorem mrTest_spec {n : Nat} (hX : IsX X n) {W R : Mpi} {s : Nat} (hW : IsW W n) (hR : R.WF) (hRn : R.neg = false) (hs : n - 1 = 2 ^ s * R.mag) (hm : R.mag % 2 = 1)
    {A T RR : Mpi} (hA : A.WF) (hAn : A.neg = false) (hAl : A.p.length ≤ X.p.length + 1) (hT : T.WF) (hTl : T.p.length ≤ 300) (hc : CacheOk X (some RR)) :
    (Strong n A.mag → ∃ t, mrTest X W R s A T RR = .ok t ∧ MrInv X t) ∧
    (¬ Strong n A.mag → mrTest X W R s A T RR = .err .notAcceptable) := by
  have hX1 := hX.one_le
  have hbig := hX.big
  have hlen := hX.len
  have hmag := hX.mag
  have hWm := hW.mag
  have hX0 : 0 < X.toInt := by rw [toInt_pos hX.neg]; omega
  have hs1 : 1 ≤ s := by
    rcases Nat.eq_zero_or_pos s with rfl | h
    · rw [pow_zero, one_mul] at hs; have := hX.odd; omega
    · exact h
  obtain ⟨e, rr, e1, e2, e3, e4, e5⟩ := expMod_spec (X := A) (E := R) (A := .self) (rr := some RR) hA trivial hR hX.wf hX0 (by rw [hX.mag]; exact hX.odd)
    (by rw [toInt_pos hRn]; omega) (by omega) (by show A.p.length + 2 ≤ maxLimbs; unfold maxLimbs; omega) (by intro m h; cases h) hc
  obtain ⟨u1, u2, u3⟩ := expMod_up (A := .self) hX.wf hX0 (by omega) hc hAn e1
  have hv : e.mag = A.mag ^ R.mag % n := by
    have h := e3
    unfold expVal at h
    rw [if_neg (by show ¬ (A.neg = true ∧ _); rw [hAn]; simp), toInt_pos u3, hX.mag] at h
    exact_mod_cast h
  obtain ⟨RR', hRR⟩ : ∃ m, rr = some m := Option.isSome_iff_exists.1 (by rw [e5]; rfl)
  subst hRR
  have hlt : e.mag < n := by rw [hv]; exact Nat.mod_lt _ (by omega)
  rw [strong_iff hs hm]
  unfold mrTest
  simp only [e1, Out.bind_ok, orUb_some]
  rw [cmpMpi_spec e2 hW.wf, cmpInt_spec e2 (by decide), toInt_pos u3, toInt_pos hW.neg]
  by_cases hq : e.mag = n - 1 ∨ e.mag = 1
  · rw [if_pos (by
      rcases hq with h | h
      · left; unfold sgn; split_ifs <;> omega
      · right; unfold sgn; split_ifs <;> omega)]
    refine ⟨fun _ => ⟨_, rfl, e2, by simp only; omega, hT, hTl, e4⟩, fun h => absurd ?_ h⟩
    rcases hq with h | h
    · right; exact ⟨0, by omega, by rw [pow_zero, one_mul, ← hv, h]⟩
    · left; rw [← hv, h]
  · push Not at hq
    rw [if_neg (by
      rw [sgn_zero_iff, sgn_zero_iff]; omega)]
    obtain ⟨A', T', h1, h2, h3, h4, h5, h6, h7⟩ := mrSquare_spec hX.wf hX.neg hX.mag (by omega) hlen hW (s - 1) (A := e) (T := T) e2 u3 u2 (by omega) hlt hq.2 hT hTl
    simp only [h1, Out.bind_ok]
    rw [cmpMpi_spec h2 hW.wf, cmpInt_spec h2 (by decide), toInt_pos h3, toInt_pos hW.neg]
    have key : (A.mag ^ R.mag % n = 1 ∨ ∃ r < s, A.mag ^ (2 ^ r * R.mag) % n = n - 1) ↔ A'.mag = n - 1 := by
      rw [h7]
      constructor
      · rintro (h | ⟨r, hr, h⟩)
        · exact absurd (hv.trans h) hq.2
        · exact ⟨r, by omega, by rw [hv, ← Nat.pow_mod, ← pow_mul, mul_comm]; exact h⟩
      · rintro ⟨r, hr, h⟩
        right
        refine ⟨r, by omega, ?_⟩
        rwa [hv, ← Nat.pow_mod, ← pow_mul, mul_comm] at h
    rw [key]
    clear key h7
    refine ⟨fun h => ?_, fun h => ?_⟩
    · rw [if_neg (by
        rw [Ne, sgn_zero_iff, sgn_zero_iff]; omega)]
      exact ⟨_, rfl, h2, h4, h5, h6, e4⟩
    · rw [if_pos (by rw [Ne, sgn_zero_iff, sgn_zero_iff]; omega)]

/-! ## The rounds -/

/-- A round that starts at call `i` tests the base `a`, and the next one starts at call `j`. -/
def Round (g : Rng) (sz n i a j : Nat) : Prop := (∃ b, g i sz = .ok b) ∧ Picks g sz n 31 (i + 1) a j

/-- The number passes `r` rounds, with these bases. -/
inductive Passes (g : Rng) (sz n : Nat) : Nat → Nat → List Nat → Nat → Prop
  | nil (i : Nat) : Passes g sz n 0 i [] i
  | cons {r i a j l k} : Round g sz n i a j → Strong n a → Passes g sz n r j l k → Passes g sz n (r + 1) i (a :: l) k

/-- The number is rejected in one of `r` rounds: no base is found, or it does not pass. -/
inductive Rejects (g : Rng) (sz n : Nat) : Nat → Nat → Nat → Prop
  | none {r i} : (∃ b, g i sz = .ok b) → Useless g sz n (i + 1) 31 → Rejects g sz n (r + 1) i (i + 33)
  | fails {r i a j} : Round g sz n i a j → ¬ Strong n a → Rejects g sz n (r + 1) i j
  | cons {r i a j k} : Round g sz n i a j → Strong n a → Rejects g sz n r j k → Rejects g sz n (r + 1) i k

theorem Round.lt {g : Rng} {sz n i a j : Nat} (h : Round g sz n i a j) : i < j := by
  obtain ⟨-, t, -, -, -, -, rfl⟩ := h
  omega

theorem mrLoop_spec (hg : g.Ok) {n : Nat} (hX : IsX X n) {W R : Mpi} {s : Nat} (hW : IsW W n) (hR : R.WF) (hRn : R.neg = false) (hs : n - 1 = 2 ^ s * R.mag)
    (hm : R.mag % 2 = 1) : ∀ (r : Nat) (t : MrSt) (i : Nat), MrInv X t →
    (∃ l j, mrLoop g X W R s r t i = (.ok (), j) ∧ Passes g (X.p.length * 8) n r i l j) ∨
    (∃ j, mrLoop g X W R s r t i = (.err .notAcceptable, j) ∧ Rejects g (X.p.length * 8) n r i j) ∨
    (∃ e j, mrLoop g X W R s r t i = (.err e, j) ∧ Fails g (X.p.length * 8) i e j) := by
  have hX1 := hX.one_le
  have hk : X.p.length * 8 ≤ mpiMaxSize := by have := hX.len; unfold mpiMaxSize; omega
  intro r
  induction r with
  | zero => intro t i _; left; exact ⟨[], i, rfl, Passes.nil i⟩
  | succ r ih =>
    intro t i ht
    rw [mrLoop, Run.bind_apply]
    rcases firstDraw_spec hg hW hk hX1 ht.wA ht.lA i with ⟨b, A, b1, a1, a2, a3⟩ | ⟨e, h1, h2⟩
    · rw [a1, Run.next_ok, Run.bind_apply]
      rcases drawBase_spec hg hW hk hX1 31 (i + 1) a2 a3 with ⟨B, j, c1, c2, c3, c4, c5, c6⟩ | ⟨c1, c2⟩ | ⟨e, j, c1, u, c2, c3, c4⟩
      · rw [c1, Run.next_ok, Run.bind_apply, Run.of_apply]
        have hround : Round g (X.p.length * 8) n i B.mag j := ⟨⟨b, b1⟩, c6⟩
        obtain ⟨p1, p2⟩ := mrTest_spec hX hW hR hRn hs hm c2 c3 c5 ht.wT ht.lT ht.c
        by_cases hst : Strong n B.mag
        · obtain ⟨t', t1, t2⟩ := p1 hst
          rw [t1, Run.next_ok]
          rcases ih t' j t2 with ⟨l, k, h1, h2⟩ | ⟨k, h1, h2⟩ | ⟨e, k, h1, u, h2, h3⟩
          · left; exact ⟨_, k, h1, Passes.cons hround hst h2⟩
          · right; left; exact ⟨k, h1, Rejects.cons hround hst h2⟩
          · right; right
            have := hround.lt
            exact ⟨e, k, h1, u, by omega, h3⟩
        · right; left
          rw [p2 hst]
          exact ⟨j, rfl, Rejects.fails hround hst⟩
      · right; left
        rw [c1]
        exact ⟨i + 33, rfl, Rejects.none ⟨b, b1⟩ c2⟩
      · right; right
        rw [c1]
        exact ⟨e, j, rfl, u, by omega, c3, c4⟩
    · right; right
      rw [h1]
      exact ⟨e, i + 1, rfl, i, le_refl _, rfl, h2⟩

theorem millerRabin_spec (hg : g.Ok) {n : Nat} (hX : IsX X n) (i : Nat) :
    (∃ l j, millerRabin g X i = (.ok (), j) ∧ Passes g (X.p.length * 8) n (mrRounds (bitlen n)) i l j) ∨
    (∃ j, millerRabin g X i = (.err .notAcceptable, j) ∧ Rejects g (X.p.length * 8) n (mrRounds (bitlen n)) i j) ∨
    (∃ e j, millerRabin g X i = (.err e, j) ∧ Fails g (X.p.length * 8) i e j) := by
  have hbig := hX.big
  have hmag := hX.mag
  have hlt := hX.wf.mag_lt
  obtain ⟨W, w1, w2, w3⟩ := (subMpi_spec Mpi.null_WF (A := .ext X) hX.wf (B := .ext (small 1)) (small_WF (by decide))).1 (by
    show (X.toInt - (small 1).toInt).natAbs < _
    rw [toInt_pos hX.neg, show (small 1).toInt = 1 from rfl]
    generalize W64 ^ maxLimbs = w at *
    omega)
  change W.toInt = X.toInt - (small 1).toInt at w3
  rw [toInt_pos hX.neg, show (small 1).toInt = 1 from rfl] at w3
  have hWn : W.neg = false := neg_of_pos (by omega)
  have hWm : W.mag = n - 1 := by rw [toInt_pos hWn] at w3; omega
  have hW : IsW W n := ⟨w2, hWn, hWm⟩
  obtain ⟨m, m1, m2⟩ := lsb_spec w2 (by omega)
  obtain ⟨R, r1, r2, r3, r4, -⟩ := copy_spec Mpi.null_WF w2
  have hRn := copy_neg r1 hWn
  obtain ⟨S, s1, s2, s3, s4, -⟩ := shiftR_spec r2 (lsb W)
  have hSm : S.mag = m := by rw [s3, r3, m1, Nat.mul_div_cancel_left _ (by positivity)]
  have hlen := hX.len
  have h := mrLoop_spec hg hX hW s2 (s4 hRn) (by rw [hSm, ← m1, hWm]) (by rw [hSm]; exact m2) (mrRounds (bitlen n)) ⟨Mpi.null, Mpi.null, Mpi.null⟩ i
    ⟨Mpi.null_WF, by simp [Mpi.null], Mpi.null_WF, by simp [Mpi.null], fun m h1 h2 => by
      simp only [Option.some.injEq] at h1; rw [← h1] at h2; exact absurd rfl h2⟩
  have e : millerRabin g X i = mrLoop g X W S (lsb W) (mrRounds (bitlen n)) ⟨Mpi.null, Mpi.null, Mpi.null⟩ i := by
    unfold millerRabin subInt
    rw [Run.bind_apply, Run.of_apply, w1, Run.next_ok, Run.bind_apply, Run.of_apply, r1, Run.next_ok, Run.bind_apply, Run.of_apply, s1, Run.next_ok,
      bitlenL_spec hX.wf, hX.mag]
  rw [e]
  exact h

end Verif.Bignum
