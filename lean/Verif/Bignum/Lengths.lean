import Verif.Bignum.Inv

/-!
# Upper bounds of the sizes of results

The functions never give memory back, so that the sizes of the operands of a sequence of calls have to be followed.
-/

namespace Verif.Bignum

open Verif

/-! ## Lists of limbs -/

theorem sig_append_zeros (p : List Nat) (k : Nat) : sig (p ++ List.replicate k 0) = sig p := by
  unfold sig
  rw [List.reverse_append, List.reverse_replicate]
  congr 1
  induction k with
  | zero => rfl
  | succ k ih => rw [List.replicate_succ, List.cons_append, List.dropWhile_cons]; simp

theorem sig_take {p : List Nat} {i : Nat} (h : sig p ≤ i) : sig (p.take i) = sig p := by
  obtain ⟨k, hk, hl⟩ := sig_split p
  have hlen : (p.take (sig p)).length = sig p := by rw [List.length_take]; omega
  have e : p.take i = p.take (sig p) ++ List.replicate (min (i - sig p) k) 0 := by
    conv_lhs => rw [hk]
    rw [List.take_append, hlen, List.take_of_length_le (by omega), List.take_replicate]
  conv_rhs => rw [hk, sig_append_zeros]
  rw [e, sig_append_zeros]

theorem borrowUp_length : ∀ {d : List Nat} {c : Nat} {r : List Nat}, borrowUp c d = some r → r.length = d.length := by
  intro d
  induction d with
  | nil =>
    intro c r h
    cases c with
    | zero => simp only [borrowUp, Option.some.injEq] at h; rw [← h]
    | succ c => simp [borrowUp] at h
  | cons x xs ih =>
    intro c r h
    cases c with
    | zero => simp only [borrowUp, Option.some.injEq] at h; rw [← h]
    | succ c =>
      rw [borrowUp] at h
      simp only [Option.bind_eq_bind, Option.bind_eq_some_iff] at h
      obtain ⟨r', h1, h2⟩ := h
      have := ih h1
      simp only [Option.pure_def, Option.some.injEq] at h2
      rw [← h2, List.length_cons, List.length_cons, this]

theorem subLoop_length : ∀ {s d : List Nat} {c : Nat} {r : List Nat}, subLoop c s d = some r → r.length = d.length := by
  intro s
  induction s with
  | nil => intro d c r h; exact borrowUp_length h
  | cons y ys ih =>
    intro d c r h
    cases d with
    | nil => simp [subLoop] at h
    | cons x xs =>
      rw [subLoop] at h
      simp only [Option.bind_eq_bind, Option.bind_eq_some_iff] at h
      obtain ⟨r', h1, h2⟩ := h
      have := ih h1
      simp only [Option.pure_def, Option.some.injEq] at h2
      rw [← h2, List.length_cons, List.length_cons, this]

/-! ## Copying -/

/-- What was copied needs no more memory than its value and the destination. -/
theorem copy_up {X Y R : Mpi} (h : copy X Y = .ok R) : R.p.length ≤ max X.p.length (max 1 (sig R.p)) ∧ sig R.p = sig Y.p := by
  by_cases hY : Y.p = []
  · unfold copy at h
    rw [if_pos hY] at h
    simp only [Out.ok.injEq] at h
    rw [← h, hY]
    exact ⟨Nat.zero_le _, rfl⟩
  · have hl := (copy_len hY h).2
    have hs : sig R.p = sig Y.p := by
      unfold copy grow at h
      rw [if_neg hY] at h
      have hm : ¬ max (sig Y.p) 1 > maxLimbs := by
        intro hm
        simp only [if_pos hm] at h
        exact absurd h (by simp)
      simp only [if_neg hm, Out.bind_ok, Out.pure_eq, Out.ok.injEq] at h
      rw [← h]
      simp only
      rw [sig_append_zeros, sig_take (by omega)]
    rw [hs, hl]
    exact ⟨by omega, rfl⟩

theorem copyArg_up {X R : Mpi} {A : Arg} (h : copyArg X A = .ok R) : R.p.length ≤ max X.p.length (max 1 (sig (A.get X).p)) := by
  cases A with
  | self => simp only [copyArg, Out.ok.injEq] at h; subst h; exact le_max_left _ _
  | ext m =>
    have := copy_up h
    rw [this.2] at this
    exact this.1

/-! ## Addition and subtraction -/

theorem subAbs_up {X R : Mpi} {A B : Arg} (h : subAbs X A B = .ok R) : R.p.length ≤ max X.p.length (max 1 (sig (A.get X).p)) := by
  unfold subAbs at h
  split at h
  · simp at h
  · obtain ⟨TB, -, h⟩ := Out.bind_eq_ok.1 h
    obtain ⟨Y, y1, h⟩ := Out.bind_eq_ok.1 h
    obtain ⟨p, p1, h⟩ := Out.bind_eq_ok.1 h
    simp only [Out.pure_eq, Out.ok.injEq] at h
    cases hs : subHlp (TB.p.take (sig TB.p)) Y.p with
    | none => rw [hs] at p1; simp [orUb] at p1
    | some q =>
      rw [hs, orUb_some, Out.ok.injEq] at p1
      rw [← h, ← p1]
      have := subLoop_length hs
      simp only
      rw [this]
      exact copyArg_up y1

theorem addAbs_up {X R : Mpi} {A B : Arg} (hX : X.WF) (hA : A.WF) (hB : B.WF) (h : addAbs X A B = .ok R) :
    R.p.length ≤ max X.p.length (max (sig (A.get X).p) (sig (B.get X).p) + 1) := by
  have hval : R.mag = (A.get X).mag + (B.get X).mag := by
    by_cases hlt : (A.get X).mag + (B.get X).mag < W64 ^ maxLimbs
    · obtain ⟨S, s1, -, s3, -⟩ := (addAbs_spec hX hA hB).1 hlt
      rw [h, Out.ok.injEq] at s1
      rw [s1]; exact s3
    · rw [(addAbs_spec hX hA hB).2 (by omega)] at h
      exact absurd h (by simp)
  have hRlt : R.mag < W64 ^ (max (sig (A.get X).p) (sig (B.get X).p) + 1) := by
    have h1 := val_lt_sig (Arg.WF.get hX hA).ok
    have h2 := val_lt_sig (Arg.WF.get hX hB).ok
    have h3 : W64 ^ sig (A.get X).p ≤ W64 ^ max (sig (A.get X).p) (sig (B.get X).p) := Nat.pow_le_pow_right (by decide) (le_max_left _ _)
    have h4 : W64 ^ sig (B.get X).p ≤ W64 ^ max (sig (A.get X).p) (sig (B.get X).p) := Nat.pow_le_pow_right (by decide) (le_max_right _ _)
    rw [hval, pow_succ W64]
    unfold Mpi.mag
    generalize W64 ^ max (sig (A.get X).p) (sig (B.get X).p) = w at *
    omega
  unfold addAbs at h
  have hS : (swapSelf A B).1.WF ∧ (swapSelf A B).2.WF ∧ sig ((swapSelf A B).1.get X).p ≤ max (sig (A.get X).p) (sig (B.get X).p) := by
    cases B with
    | self => exact ⟨trivial, hA, le_max_right _ _⟩
    | ext m => exact ⟨hA, hB, le_max_left _ _⟩
  obtain ⟨hS1, hS2, hS3⟩ := hS
  obtain ⟨Y, y1, y2, y3, -, -⟩ := copyArg_spec hX hS1
  have hl := copyArg_up y1
  simp only [y1, Out.bind_ok] at h
  have hYW : Mpi.WF { Y with neg := false } := ⟨y2.ok, y2.len⟩
  have hb := Arg.WF.get hYW hS2
  have hbs := sig_le ((swapSelf A B).2.get { Y with neg := false }).p
  have hbl := hb.len
  have hsb : sig ((swapSelf A B).2.get { Y with neg := false }).p ≤ max (sig (A.get X).p) (sig (B.get X).p) := by
    cases B with
    | self =>
      cases A with
      | self =>
        simp only [swapSelf, copyArg, Out.ok.injEq] at y1
        subst y1
        exact le_max_left _ _
      | ext m => exact le_max_left _ _
    | ext m => exact le_max_right _ _
  obtain ⟨Z, z1, z2, -, -, z3, -⟩ := (grow_spec _ hYW (sig ((swapSelf A B).2.get { Y with neg := false }).p)).1 (by omega)
  simp only [z1, Out.bind_ok] at h
  obtain ⟨a1, -, a3, a4, a5⟩ := addLoop_val (hb.ok.take (sig ((swapSelf A B).2.get { Y with neg := false }).p)) z2.ok
    (by rw [List.length_take]; omega) (c := 0) (by decide)
  split at h
  · exact absurd h (by simp)
  · simp only [Out.pure_eq, Out.ok.injEq] at h
    subst h
    simp only at z3 ⊢
    have hm : val (addLoop 0 (((swapSelf A B).2.get { Y with neg := false }).p.take (sig ((swapSelf A B).2.get { Y with neg := false }).p)) Z.p) <
        W64 ^ (max (sig (A.get X).p) (sig (B.get X).p) + 1) := hRlt
    rw [a1] at hm
    by_cases hz : Z.p.length ≤ max (sig (A.get X).p) (sig (B.get X).p)
    · omega
    · have := a4 (lt_of_lt_of_le hm (Nat.pow_le_pow_right (by decide) (by omega)))
      omega

theorem addMpi_up {X R : Mpi} {A B : Arg} (hX : X.WF) (hA : A.WF) (hB : B.WF) (h : addMpi X A B = .ok R) :
    R.p.length ≤ max X.p.length (max (sig (A.get X).p) (sig (B.get X).p) + 1) := by
  unfold addMpi at h
  simp only at h
  split at h
  · split at h
    · obtain ⟨S, s1, s2⟩ := Out.bind_eq_ok.1 h
      simp only [Out.pure_eq, Out.ok.injEq] at s2
      subst s2
      have := subAbs_up s1
      simp only
      omega
    · obtain ⟨S, s1, s2⟩ := Out.bind_eq_ok.1 h
      simp only [Out.pure_eq, Out.ok.injEq] at s2
      subst s2
      have := subAbs_up s1
      simp only
      omega
  · obtain ⟨S, s1, s2⟩ := Out.bind_eq_ok.1 h
    simp only [Out.pure_eq, Out.ok.injEq] at s2
    subst s2
    exact (addAbs_up hX hA hB s1 :)

theorem subMpi_up {X R : Mpi} {A B : Arg} (hX : X.WF) (hA : A.WF) (hB : B.WF) (h : subMpi X A B = .ok R) :
    R.p.length ≤ max X.p.length (max (sig (A.get X).p) (sig (B.get X).p) + 1) := by
  unfold subMpi at h
  simp only at h
  split at h
  · split at h
    · obtain ⟨S, s1, s2⟩ := Out.bind_eq_ok.1 h
      simp only [Out.pure_eq, Out.ok.injEq] at s2
      subst s2
      have := subAbs_up s1
      simp only
      omega
    · obtain ⟨S, s1, s2⟩ := Out.bind_eq_ok.1 h
      simp only [Out.pure_eq, Out.ok.injEq] at s2
      subst s2
      have := subAbs_up s1
      simp only
      omega
  · obtain ⟨S, s1, s2⟩ := Out.bind_eq_ok.1 h
    simp only [Out.pure_eq, Out.ok.injEq] at s2
    subst s2
    exact (addAbs_up hX hA hB s1 :)

/-- Subtracting the absolute values never needs a further limb. -/
theorem addMpi_up_signs {X R : Mpi} {A B : Arg} (hs : (A.get X).neg ≠ (B.get X).neg) (h : addMpi X A B = .ok R) :
    R.p.length ≤ max X.p.length (max 1 (max (sig (A.get X).p) (sig (B.get X).p))) := by
  unfold addMpi at h
  simp only at h
  rw [if_pos hs] at h
  split at h
  · obtain ⟨S, s1, s2⟩ := Out.bind_eq_ok.1 h
    simp only [Out.pure_eq, Out.ok.injEq] at s2
    subst s2
    have := subAbs_up s1
    simp only
    omega
  · obtain ⟨S, s1, s2⟩ := Out.bind_eq_ok.1 h
    simp only [Out.pure_eq, Out.ok.injEq] at s2
    subst s2
    have := subAbs_up s1
    simp only
    omega

theorem subMpi_up_signs {X R : Mpi} {A B : Arg} (hs : (A.get X).neg = (B.get X).neg) (h : subMpi X A B = .ok R) :
    R.p.length ≤ max X.p.length (max 1 (max (sig (A.get X).p) (sig (B.get X).p))) := by
  unfold subMpi at h
  simp only at h
  rw [if_pos hs] at h
  split at h
  · obtain ⟨S, s1, s2⟩ := Out.bind_eq_ok.1 h
    simp only [Out.pure_eq, Out.ok.injEq] at s2
    subst s2
    have := subAbs_up s1
    simp only
    omega
  · obtain ⟨S, s1, s2⟩ := Out.bind_eq_ok.1 h
    simp only [Out.pure_eq, Out.ok.injEq] at s2
    subst s2
    have := subAbs_up s1
    simp only
    omega

/-! ## Multiplication -/

theorem mulFinish_length : ∀ {d : List Nat} {c : Nat} {r : List Nat}, mulFinish c d = some r → r.length = d.length := by
  intro d
  induction d with
  | nil => intro c r h; simp [mulFinish] at h
  | cons x xs ih =>
    intro c r h
    rw [mulFinish] at h
    split at h
    · simp only [Option.bind_eq_bind, Option.bind_eq_some_iff] at h
      obtain ⟨r', h1, h2⟩ := h
      have := ih h1
      simp only [Option.pure_def, Option.some.injEq] at h2
      rw [← h2, List.length_cons, List.length_cons, this]
    · simp only [Option.some.injEq] at h
      rw [← h]; rfl

theorem mulLoop_length {b : Nat} : ∀ {s d : List Nat} {c : Nat} {r : List Nat}, mulLoop b c s d = some r → r.length = d.length := by
  intro s
  induction s with
  | nil => intro d c r h; exact mulFinish_length h
  | cons y ys ih =>
    intro d c r h
    cases d with
    | nil => simp [mulLoop] at h
    | cons x xs =>
      rw [mulLoop] at h
      simp only [Option.bind_eq_bind, Option.bind_eq_some_iff] at h
      obtain ⟨r', h1, h2⟩ := h
      have := ih h1
      simp only [Option.pure_def, Option.some.injEq] at h2
      rw [← h2, List.length_cons, List.length_cons, this]

theorem mulRows_length {s b : List Nat} : ∀ {j : Nat} {x r : List Nat}, mulRows s b j x = some r → r.length = x.length := by
  intro j
  induction j with
  | zero => intro x r h; simp only [mulRows, Option.some.injEq] at h; rw [← h]
  | succ j ih =>
    intro x r h
    rw [mulRows] at h
    simp only [Option.bind_eq_bind, Option.bind_eq_some_iff] at h
    obtain ⟨y, h1, h2⟩ := h
    have h3 := mulLoop_length h1
    have h4 := ih h2
    rw [h4, List.length_append, h3, List.length_take, List.length_drop]
    omega

theorem unalias_up {X T : Mpi} {C : Arg} (h : unalias X C = .ok T) : sig T.p = sig (C.get X).p ∧ ((C.get X).neg = false → T.neg = false) := by
  cases C with
  | ext m => simp only [unalias, Out.ok.injEq] at h; rw [← h]; exact ⟨rfl, id⟩
  | self => exact ⟨(copy_up h).2, copy_neg h⟩

theorem grow_up {X R : Mpi} {n : Nat} (h : grow X n = .ok R) : R.p.length = max X.p.length n ∧ R.neg = X.neg := by
  unfold grow at h
  split at h
  · simp at h
  · simp only [Out.ok.injEq] at h
    rw [← h]
    refine ⟨?_, rfl⟩
    simp only [List.length_append, List.length_replicate]
    omega

theorem lset_up {X R : Mpi} {z : Int} (h : lset X z = .ok R) : R.p.length = max X.p.length 1 := by
  unfold lset at h
  obtain ⟨Y, y1, h⟩ := Out.bind_eq_ok.1 h
  have := (grow_up y1).1
  simp only [Out.pure_eq, Out.ok.injEq] at h
  rw [← h]
  simp only [List.length_cons, List.length_replicate]
  omega

theorem orUb_ok {α : Type} {o : Option α} {a : α} (h : orUb o = .ok a) : o = some a := by
  cases o with
  | none => simp [orUb] at h
  | some b => rw [orUb_some, Out.ok.injEq] at h; rw [h]

theorem mulMpi_up {X R : Mpi} {A B : Arg} (h : mulMpi X A B = .ok R) :
    R.p.length = max X.p.length (max 1 (sig (A.get X).p + sig (B.get X).p)) ∧ ((A.get X).neg = false → (B.get X).neg = false → R.neg = false) := by
  unfold mulMpi at h
  obtain ⟨TA, a1, h⟩ := Out.bind_eq_ok.1 h
  obtain ⟨TB, b1, h⟩ := Out.bind_eq_ok.1 h
  obtain ⟨Y, y1, h⟩ := Out.bind_eq_ok.1 h
  obtain ⟨Z, z1, h⟩ := Out.bind_eq_ok.1 h
  obtain ⟨p, p1, h⟩ := Out.bind_eq_ok.1 h
  simp only [Out.pure_eq, Out.ok.injEq] at h
  have e1 := unalias_up a1
  have e2 := unalias_up b1
  have e3 := (grow_up y1).1
  have e4 := lset_up z1
  have e5 := mulRows_length (orUb_ok p1)
  rw [← h]
  refine ⟨?_, fun ha hb => ?_⟩
  · simp only
    omega
  · simp only
    rw [e1.2 ha, e2.2 hb]; rfl

/-! ## Shifting -/

theorem shrBits_length (t : Nat) : ∀ (r0 : Nat) (l : List Nat), (shrBits t r0 l).length = l.length := by
  intro r0 l
  induction l generalizing r0 with
  | nil => rfl
  | cons x r ih => simp [shrBits, ih]

theorem shiftR_up {X R : Mpi} {c : Nat} (h : shiftR X c = .ok R) : R.p.length ≤ max X.p.length 1 ∧ (X.p ≠ [] → R.p ≠ []) := by
  unfold shiftR at h
  simp only at h
  split at h
  · have := lset_up h
    refine ⟨by omega, fun _ h0 => ?_⟩
    rw [h0, List.length_nil] at this
    omega
  · rename_i hc
    simp only [Out.ok.injEq] at h
    have hl : R.p.length = X.p.length := by
      rw [← h]
      simp only
      split_ifs <;> simp only [shrBits_length, List.length_reverse, List.length_append, List.length_drop, List.length_replicate] <;> omega
    refine ⟨by omega, fun h0 h1 => ?_⟩
    rw [h1, List.length_nil] at hl
    exact h0 (List.length_eq_zero_iff.1 hl.symm)

/-! ## Division -/

theorem putR_up {R X r : Mpi} {k : Nat} {neg : Bool} (h : putR (some R) X k neg = .ok (some r)) : r.p.length ≤ max R.p.length (max 1 (sig r.p)) := by
  unfold putR at h
  obtain ⟨S, -, h⟩ := Out.bind_eq_ok.1 h
  obtain ⟨C, c1, h⟩ := Out.bind_eq_ok.1 h
  simp only [Out.pure_eq, Out.ok.injEq, Option.some.injEq] at h
  have e : r.p = C.p := by rw [← h]; split <;> rfl
  rw [e]
  exact (copy_up c1).1

theorem divMpi_up {A B r : Mpi} {Q : Option Mpi} {R : Mpi} {ra : Bool} {q : Option Mpi} (hra : ra = true → R = A)
    (h : divMpi false ra Q (some R) A B = .ok (q, some r)) : r.p.length ≤ max R.p.length (max 1 (sig r.p)) := by
  unfold divMpi at h
  split at h
  · simp at h
  · split at h
    · obtain ⟨Q', -, h⟩ := Out.bind_eq_ok.1 h
      simp only [Bool.false_eq_true, if_false] at h
      obtain ⟨R', r1, h⟩ := Out.bind_eq_ok.1 h
      simp only [Out.pure_eq, Out.ok.injEq, Prod.mk.injEq] at h
      rw [h.2] at r1
      unfold copyUnless at r1
      cases ra with
      | true =>
        simp only [if_true, Out.ok.injEq, Option.some.injEq] at r1
        rw [← r1]
        exact le_max_left _ _
      | false =>
        rw [if_neg (by simp)] at r1
        simp only [optCopy] at r1
        obtain ⟨C, c1, c2⟩ := Out.bind_eq_ok.1 r1
        simp only [Out.pure_eq, Out.ok.injEq, Option.some.injEq] at c2
        rw [← c2]
        exact (copy_up c1).1
    · obtain ⟨s, -, h⟩ := Out.bind_eq_ok.1 h
      simp only [Bool.false_eq_true, if_false] at h
      obtain ⟨Q', -, h⟩ := Out.bind_eq_ok.1 h
      obtain ⟨R', r1, h⟩ := Out.bind_eq_ok.1 h
      simp only [Out.pure_eq, Out.ok.injEq, Prod.mk.injEq] at h
      rw [h.2] at r1
      exact putR_up r1

theorem neg_of_neg {X : Mpi} (h : X.toInt < 0) : X.neg = true := by
  unfold Mpi.toInt at h
  cases hn : X.neg
  · rw [hn] at h
    simp only [Bool.false_eq_true, if_false] at h
    omega
  · rfl

theorem addWhileNeg_up {B : Mpi} (hB : B.WF) (hB0 : 0 < B.toInt) : ∀ (f : Nat) {R S : Mpi}, R.WF → addWhileNeg B f R = .ok S →
    S.p.length ≤ max R.p.length B.p.length := by
  have hBn := neg_of_pos hB0
  have hBl := sig_le B.p
  have hBs : 1 ≤ B.p.length := List.length_pos_iff.2 (nonnil_of_mag (by rw [← natAbs_toInt]; omega))
  intro f
  induction f with
  | zero => intro R S _ h; simp [addWhileNeg] at h
  | succ f ih =>
    intro R S hR h
    rw [addWhileNeg, cmpInt_spec hR (by decide), Int.sub_zero] at h
    by_cases hn : R.toInt < 0
    · rw [if_pos (by unfold sgn; split_ifs; omega)] at h
      obtain ⟨T, t1, h⟩ := Out.bind_eq_ok.1 h
      have e1 := natAbs_toInt R
      have e2 := natAbs_toInt B
      have hRm := hR.mag_lt
      have hBm := hB.mag_lt
      obtain ⟨T', t1', t2, -⟩ := (addMpi_spec hR (A := .self) trivial (B := .ext B) hB).1 (by
        show (R.toInt + B.toInt).natAbs < _
        generalize W64 ^ maxLimbs = w at *
        omega)
      rw [t1, Out.ok.injEq] at t1'
      subst t1'
      have h1 := addMpi_up_signs (A := .self) (B := .ext B) (by
        show R.neg ≠ B.neg
        rw [neg_of_neg hn, hBn]; decide) t1
      have h2 := ih t2 h
      have h3 : sig (Arg.get R .self).p ≤ R.p.length := sig_le _
      have h4 : sig (Arg.get R (.ext B)).p ≤ B.p.length := sig_le _
      omega
    · rw [if_neg (by unfold sgn; split_ifs <;> omega), Out.ok.injEq] at h
      rw [h]; exact le_max_left _ _

theorem subWhileGe_up {B : Mpi} (hB : B.WF) (hB0 : 0 < B.toInt) : ∀ (f : Nat) {R S : Mpi}, R.WF → subWhileGe B f R = .ok S →
    S.p.length ≤ max R.p.length B.p.length := by
  have hBn := neg_of_pos hB0
  have hBs : 1 ≤ B.p.length := List.length_pos_iff.2 (nonnil_of_mag (by rw [← natAbs_toInt]; omega))
  intro f
  induction f with
  | zero => intro R S _ h; simp [subWhileGe] at h
  | succ f ih =>
    intro R S hR h
    rw [subWhileGe, cmpMpi_spec hR hB] at h
    by_cases hn : B.toInt ≤ R.toInt
    · rw [if_pos (by unfold sgn; split_ifs <;> omega)] at h
      obtain ⟨T, t1, h⟩ := Out.bind_eq_ok.1 h
      have e1 := natAbs_toInt R
      have e2 := natAbs_toInt B
      have hRm := hR.mag_lt
      have hBm := hB.mag_lt
      obtain ⟨T', t1', t2, -⟩ := (subMpi_spec hR (A := .self) trivial (B := .ext B) hB).1 (by
        show (R.toInt - B.toInt).natAbs < _
        generalize W64 ^ maxLimbs = w at *
        omega)
      rw [t1, Out.ok.injEq] at t1'
      subst t1'
      have h1 := subMpi_up_signs (A := .self) (B := .ext B) (by
        show R.neg = B.neg
        rw [neg_of_pos (by omega : 0 < R.toInt), hBn]) t1
      have h2 := ih t2 h
      have h3 : sig (Arg.get R .self).p ≤ R.p.length := sig_le _
      have h4 : sig (Arg.get R (.ext B)).p ≤ B.p.length := sig_le _
      omega
    · rw [if_neg (by unfold sgn; split_ifs <;> omega), Out.ok.injEq] at h
      rw [h]; exact le_max_left _ _

theorem modMpi_up {R B S : Mpi} {A : Arg} (hR : R.WF) (hA : A.WF) (hB : B.WF) (hB0 : 0 < B.toInt) (hl : (A.get R).p.length + 2 ≤ maxLimbs)
    (h : modMpi R A B = .ok S) : S.p.length ≤ max R.p.length B.p.length := by
  have hBm : B.mag ≠ 0 := by rw [← natAbs_toInt]; omega
  have hBs : 1 ≤ B.p.length := List.length_pos_iff.2 (nonnil_of_mag hBm)
  unfold modMpi at h
  rw [cmpInt_spec hB (by decide), Int.sub_zero, if_neg (by unfold sgn; split_ifs <;> omega)] at h
  obtain ⟨Q', R', d1, -, d2, -, -⟩ := divMpi_spec (Q := none) (R := some R) (ra := A.isSelf) (Arg.WF.get hR hA) hB trivial hR
    (by cases A <;> simp [Arg.isSelf, Arg.get]) (by omega) hl
  simp only [d1, Out.bind_ok] at h
  cases R' with
  | none => exact absurd d2 (by simp [Got])
  | some r =>
    obtain ⟨r1, r2⟩ := d2
    have u1 := divMpi_up (by cases A <;> simp [Arg.isSelf, Arg.get]) d1
    have u2 : sig r.p ≤ B.p.length := by
      refine le_trans ?_ (sig_le B.p)
      rw [sig_eq_limbs r1.ok, sig_eq_limbs hB.ok]
      apply limbs_mono
      show r.mag ≤ B.mag
      rw [← natAbs_toInt, r2, Int.natAbs_tmod, natAbs_toInt, natAbs_toInt]
      exact (Nat.mod_lt _ (by omega)).le
    simp only [orUb_some, Out.bind_ok] at h
    obtain ⟨T, t1, h⟩ := Out.bind_eq_ok.1 h
    obtain ⟨T', t1', t2, t3, -⟩ := addWhileNeg_spec hB hB0 (fuel r) r1 (lt_fuel r1)
    rw [t1, Out.ok.injEq] at t1'
    subst t1'
    have u3 := addWhileNeg_up hB hB0 _ r1 t1
    have u4 := subWhileGe_up hB hB0 _ t2 h
    omega

/-! ## Greatest common divisor and inverse -/

theorem gcdMpi_up {G A B R : Mpi} (h : gcdMpi G A B = .ok R) : R.p.length ≤ max G.p.length (max 1 (sig R.p)) := by
  unfold gcdMpi at h
  obtain ⟨_, -, h⟩ := Out.bind_eq_ok.1 h
  obtain ⟨_, -, h⟩ := Out.bind_eq_ok.1 h
  obtain ⟨_, -, h⟩ := Out.bind_eq_ok.1 h
  obtain ⟨_, -, h⟩ := Out.bind_eq_ok.1 h
  obtain ⟨_, -, h⟩ := Out.bind_eq_ok.1 h
  obtain ⟨_, -, h⟩ := Out.bind_eq_ok.1 h
  exact (copy_up h).1

theorem invMod_up {X A N R : Mpi} (h : invMod X A N = .ok R) : R.p.length ≤ max X.p.length (max 1 (sig R.p)) := by
  unfold invMod at h
  split at h
  · simp at h
  · obtain ⟨_, -, h⟩ := Out.bind_eq_ok.1 h
    split at h
    · simp at h
    · obtain ⟨_, -, h⟩ := Out.bind_eq_ok.1 h
      obtain ⟨_, -, h⟩ := Out.bind_eq_ok.1 h
      obtain ⟨_, -, h⟩ := Out.bind_eq_ok.1 h
      obtain ⟨_, -, h⟩ := Out.bind_eq_ok.1 h
      obtain ⟨_, -, h⟩ := Out.bind_eq_ok.1 h
      obtain ⟨_, -, h⟩ := Out.bind_eq_ok.1 h
      obtain ⟨_, -, h⟩ := Out.bind_eq_ok.1 h
      obtain ⟨_, -, h⟩ := Out.bind_eq_ok.1 h
      obtain ⟨_, -, h⟩ := Out.bind_eq_ok.1 h
      obtain ⟨_, -, h⟩ := Out.bind_eq_ok.1 h
      obtain ⟨_, -, h⟩ := Out.bind_eq_ok.1 h
      exact (copy_up h).1

/-! ## Exponentiation -/

theorem montmul_up {A B N R : Mpi} {mm tl : Nat} (h : montmul A B N mm tl = .ok R) : R.p.length = A.p.length ∧ R.neg = A.neg := by
  unfold montmul at h
  split at h
  · simp at h
  · obtain ⟨t, -, h⟩ := Out.bind_eq_ok.1 h
    unfold montEnd at h
    simp only at h
    split at h
    · simp at h
    · rename_i hc
      split at h
      · obtain ⟨p, p1, h⟩ := Out.bind_eq_ok.1 h
        have := subLoop_length (orUb_ok p1)
        simp only [Out.pure_eq, Out.ok.injEq] at h
        rw [← h]
        refine ⟨?_, rfl⟩
        simp only
        rw [this]
        simp only [List.length_append, List.length_take, List.length_drop]
        omega
      · obtain ⟨p, -, h⟩ := Out.bind_eq_ok.1 h
        simp only [Out.pure_eq, Out.ok.injEq] at h
        rw [← h]
        refine ⟨?_, rfl⟩
        simp only [List.length_append, List.length_take, List.length_drop]
        omega

theorem squares_up {N : Mpi} {mm tl : Nat} : ∀ (k : Nat) {X R : Mpi}, squares N mm tl k X = .ok R → R.p.length = X.p.length ∧ R.neg = X.neg := by
  intro k
  induction k with
  | zero => intro X R h; simp only [squares, Out.ok.injEq] at h; rw [h]; exact ⟨rfl, rfl⟩
  | succ k ih =>
    intro X R h
    rw [squares] at h
    obtain ⟨Y, y1, h⟩ := Out.bind_eq_ok.1 h
    have h1 := montmul_up y1
    have h2 := ih h
    exact ⟨h2.1.trans h1.1, h2.2.trans h1.2⟩

theorem expBit_up {N : Mpi} {mm tl ws : Nat} {W : List Mpi} {s t : ExpSt} {e : Nat} (h : expBit N mm tl ws W s e = .ok t) :
    t.X.p.length = s.X.p.length ∧ t.X.neg = s.X.neg := by
  unfold expBit at h
  split at h
  · rw [Out.ok.injEq] at h; rw [h]; exact ⟨rfl, rfl⟩
  · split at h
    · obtain ⟨Y, y1, h⟩ := Out.bind_eq_ok.1 h
      simp only [Out.pure_eq, Out.ok.injEq] at h
      rw [← h]
      exact montmul_up y1
    · simp only at h
      split at h
      · obtain ⟨Y, y1, h⟩ := Out.bind_eq_ok.1 h
        obtain ⟨Z, -, h⟩ := Out.bind_eq_ok.1 h
        obtain ⟨V, v1, h⟩ := Out.bind_eq_ok.1 h
        simp only [Out.pure_eq, Out.ok.injEq] at h
        rw [← h]
        have h1 := squares_up _ y1
        have h2 := montmul_up v1
        exact ⟨h2.1.trans h1.1, h2.2.trans h1.2⟩
      · rw [Out.ok.injEq] at h; rw [← h]; exact ⟨rfl, rfl⟩

theorem expBits_up {N : Mpi} {mm tl ws : Nat} {W : List Mpi} : ∀ (l : List Nat) {s t : ExpSt}, expBits N mm tl ws W l s = .ok t →
    t.X.p.length = s.X.p.length ∧ t.X.neg = s.X.neg := by
  intro l
  induction l with
  | nil => intro s t h; simp only [expBits, Out.ok.injEq] at h; rw [h]; exact ⟨rfl, rfl⟩
  | cons e r ih =>
    intro s t h
    rw [expBits] at h
    obtain ⟨u, u1, h⟩ := Out.bind_eq_ok.1 h
    have h1 := expBit_up u1
    have h2 := ih h
    exact ⟨h2.1.trans h1.1, h2.2.trans h1.2⟩

theorem expRest_up {N : Mpi} {mm tl ws : Nat} {W : List Mpi} : ∀ (k : Nat) {X R : Mpi} {w : Nat}, expRest N mm tl ws W k X w = .ok R →
    R.p.length = X.p.length ∧ R.neg = X.neg := by
  intro k
  induction k with
  | zero => intro X R w h; simp only [expRest, Out.ok.injEq] at h; rw [h]; exact ⟨rfl, rfl⟩
  | succ k ih =>
    intro X R w h
    rw [expRest] at h
    obtain ⟨Y, y1, h⟩ := Out.bind_eq_ok.1 h
    have h1 := montmul_up y1
    simp only at h
    split at h
    · obtain ⟨Z, -, h⟩ := Out.bind_eq_ok.1 h
      obtain ⟨V, v1, h⟩ := Out.bind_eq_ok.1 h
      have h3 := montmul_up v1
      have h2 := ih h
      exact ⟨h2.1.trans (h3.1.trans h1.1), h2.2.trans (h3.2.trans h1.2)⟩
    · have h2 := ih h
      exact ⟨h2.1.trans h1.1, h2.2.trans h1.2⟩

theorem expMod_up {X E N R : Mpi} {A : Arg} {rr rr' : Option Mpi} (hN : N.WF) (hN0 : 0 < N.toInt) (hl : N.p.length ≤ 4998) (hc : CacheOk N rr)
    (hn : (A.get X).neg = false) (h : expMod X A E N rr = .ok (R, rr')) :
    R.p.length ≤ max X.p.length (N.p.length + 1) ∧ R.p ≠ [] ∧ R.neg = false := by
  unfold expMod at h
  split at h
  · simp at h
  · obtain ⟨n0, -, h⟩ := Out.bind_eq_ok.1 h
    split at h
    · simp at h
    · split at h
      · simp at h
      · simp only at h
        obtain ⟨X1, x1, h⟩ := Out.bind_eq_ok.1 h
        obtain ⟨W1, -, h⟩ := Out.bind_eq_ok.1 h
        obtain ⟨T, -, h⟩ := Out.bind_eq_ok.1 h
        obtain ⟨P, -, h⟩ := Out.bind_eq_ok.1 h
        obtain ⟨c, c1, h⟩ := Out.bind_eq_ok.1 h
        obtain ⟨W2, -, h⟩ := Out.bind_eq_ok.1 h
        obtain ⟨W3, -, h⟩ := Out.bind_eq_ok.1 h
        obtain ⟨X2, x2, h⟩ := Out.bind_eq_ok.1 h
        obtain ⟨X3, x3, h⟩ := Out.bind_eq_ok.1 h
        obtain ⟨W, -, h⟩ := Out.bind_eq_ok.1 h
        obtain ⟨s, s1, h⟩ := Out.bind_eq_ok.1 h
        obtain ⟨X4, x4, h⟩ := Out.bind_eq_ok.1 h
        obtain ⟨X5, x5, h⟩ := Out.bind_eq_ok.1 h
        obtain ⟨X6, x6, h⟩ := Out.bind_eq_ok.1 h
        simp only [Out.pure_eq, Out.ok.injEq, Prod.mk.injEq] at h
        have hneg : (A.get X1).neg = false := by
          cases A with
          | self => exact (grow_up x1).2.trans hn
          | ext m => exact hn
        unfold fixSign at x6
        rw [hneg, if_neg (by simp), Out.ok.injEq] at x6
        obtain ⟨RR, rr2, g1, g2, g3, g4, g5, -, -⟩ := getRR_spec hN hN0 hl hc
        rw [c1, Out.ok.injEq] at g1
        have hRR : c.1 = RR := by rw [g1]
        rw [hRR] at x2
        have l1 := (grow_up x1).1
        have l2 := copy_len g4 x2
        have n2 := copy_neg x2 g3
        have l3 : sig RR.p ≤ N.p.length := by
          refine le_trans ?_ (sig_le N.p)
          rw [sig_eq_limbs g2.ok, sig_eq_limbs hN.ok]
          apply limbs_mono
          show RR.mag ≤ N.mag
          rw [g5]
          exact (Nat.mod_lt _ (by rw [← natAbs_toInt]; omega)).le
        have l4 := montmul_up x3
        have l5 := expBits_up _ s1
        have l6 := expRest_up _ x4
        have l7 := montmul_up x5
        rw [← h.1, ← x6]
        simp only at l5
        refine ⟨by omega, fun h0 => ?_, ?_⟩
        · have : X5.p.length = 0 := by rw [h0]; rfl
          omega
        · rw [l7.2, l6.2, l5.2, l4.2, n2]

end Verif.Bignum
