import Mathlib.RingTheory.IntegralDomain
import Mathlib.FieldTheory.Finite.Basic
import Mathlib.Data.Nat.ChineseRemainder
import Verif.Bignum.ModelTrace
import Verif.Bignum.Exp

/-!
# Big integers as seen by an observer: what shows and what does not

`mbedtls_mpi_safe_cond_assign` and `mbedtls_mpi_safe_cond_swap` look the same for both values of the condition and all integers of the same sizes; the last loop of
`mpi_mul_hlp` does not hide its carries; and the sequence of multiplications of `mbedtls_mpi_exp_mod` gives away the exponent, from which a modulus can be factored.
-/

namespace Verif.Bignum.Traced

open Verif Verif.Bignum Verif.Trace Verif.Trace.T

/-! ## Results -/

/-- An error code as an exception. -/
def toRes {α : Type} : Out α → Res α
  | .ok a => .ok a
  | .err _ => .exc .runtimeError
  | .ub => .ub

theorem toRes_bind {α β : Type} (x : Out α) (f : α → Out β) : toRes (x >>= f) = (toRes x >>= fun a => toRes (f a)) := by
  cases x <;> rfl

theorem ok_bind {α β : Type} (a : α) (g : α → Res β) : (toRes (.ok a) >>= g) = g a := rfl

theorem forT_inv {A α : Type} (P : Nat → α → Prop) {f : Nat → α → T A α} {n : Nat} {s : α} (h0 : P 0 s)
    (hf : ∀ k s, k < n → P k s → ∃ s', (f k s).res = .ok s' ∧ P (k + 1) s') : ∃ s', (forT f n s).res = .ok s' ∧ P n s' := by
  have hi : ∀ m, m ≤ n → ∃ s', (iterT f m s).res = .ok s' ∧ P m s' := by
    intro m
    induction m with
    | zero => intro _; exact ⟨s, rfl, h0⟩
    | succ m ih =>
      intro hm
      obtain ⟨t, h1, h2⟩ := ih (by omega)
      obtain ⟨u, h3, h4⟩ := hf m t (by omega) h2
      exact ⟨u, by rw [iterT, bind_res, h1]; exact h3, h4⟩
  obtain ⟨t, h1, h2⟩ := hi n (le_refl _)
  exact ⟨t, by rw [forT, bind_res, h1]; rfl, h2⟩

theorem rdL_res {a : Arr} {p : List Nat} {i : Nat} (h : i < p.length) : (rdL a p i).res = .ok (p.getD i 0) := by
  simp [rdL, h]

theorem wrL_res {a : Arr} {p : List Nat} {i : Nat} (v : Nat) (h : i < p.length) : (wrL a p i v).res = .ok (p.set i v) := by
  simp [wrL, h]

theorem getD_set {p : List Nat} {i j v : Nat} (h : i < p.length) : (p.set i v).getD j 0 = if j = i then v else p.getD j 0 := by
  simp only [List.getD_eq_getElem?_getD, List.getElem?_set]
  by_cases hj : j = i
  · subst hj; simp [h]
  · simp [hj, Ne.symm hj]

theorem ext_getD {p q : List Nat} (hl : p.length = q.length) (h : ∀ i < p.length, p.getD i 0 = q.getD i 0) : p = q := by
  apply List.ext_getElem hl
  intro i h1 h2
  have := h i h1
  simpa [h1, h2] using this

theorem growT_res (a : Arr) (X : Mpi) (nb : Nat) : (growT a X nb).res = toRes (grow X nb) := by
  unfold growT grow
  simp only [ifT]
  by_cases h : nb > maxLimbs
  · simp only [h, if_true]; rfl
  · simp only [h, if_false]
    by_cases h2 : X.p.length < nb
    · simp only [h2, if_true, ite_self]
      split <;> rfl
    · simp only [h2, if_false, Nat.sub_eq_zero_of_le (Nat.le_of_not_lt h2), List.replicate_zero, List.append_nil]
      rfl

theorem signT_res (s : Int) : (signT s).res = toRes (ofSign s) := by
  unfold signT ofSign
  split
  · rfl
  · split <;> rfl

theorem pickLimbs_length (f : Nat) : ∀ x y, (pickLimbs f x y).length = x.length
  | [], _ => rfl
  | _ :: xs, [] => by simp [pickLimbs, pickLimbs_length f xs []]
  | _ :: xs, _ :: ys => by simp [pickLimbs, pickLimbs_length f xs ys]

theorem pickLimbs_getD (f : Nat) : ∀ x y i, i < x.length → (pickLimbs f x y).getD i 0 =
    if i < y.length then pick f (x.getD i 0) (y.getD i 0) else x.getD i 0 * ((1 + (W64 - f)) % W64) % W64
  | [], _, _, h => absurd h (by simp)
  | x :: xs, [], 0, _ => by simp [pickLimbs]
  | x :: xs, [], i + 1, h => by
    have := pickLimbs_getD f xs [] i (by simpa using h)
    simpa [pickLimbs] using this
  | x :: xs, y :: ys, 0, _ => by simp [pickLimbs]
  | x :: xs, y :: ys, i + 1, h => by
    have := pickLimbs_getD f xs ys i (by simpa using h)
    simpa [pickLimbs] using this

theorem grow_length {X R : Mpi} {nb : Nat} (h : grow X nb = .ok R) : nb ≤ R.p.length := by
  unfold grow at h
  split at h
  · exact nomatch h
  · injection h with h
    subst h
    simp; omega

theorem grow_keeps {X R : Mpi} {nb : Nat} (h : grow X nb = .ok R) (hn : nb ≤ X.p.length) : R = X := by
  unfold grow at h
  split at h
  · exact nomatch h
  · injection h with h
    subst h
    simp [Nat.sub_eq_zero_of_le hn]

/-- **C88** The function with events has the results of the model of C74. -/
theorem c88_assign_refines (X Y : Mpi) (a : Nat) : (condAssignT X Y a).res = toRes (condAssign X Y a) := by
  unfold condAssignT condAssign
  simp only
  rw [bind_res, growT_res, toRes_bind]
  cases hg : grow X Y.p.length with
  | err => rfl
  | ub => rfl
  | ok R =>
    have hl := grow_length hg
    rw [ok_bind, ok_bind, bind_res, signT_res, toRes_bind]
    congr 1
    funext s
    obtain ⟨p, p1, p2, p3⟩ := forT_inv (A := Arr) (P := fun k p => p.length = R.p.length ∧
      ∀ i, p.getD i 0 = if i < k then pick (flag a) (R.p.getD i 0) (Y.p.getD i 0) else R.p.getD i 0)
      (f := fun i p => do
        let u ← rdL .x p i
        let v ← rdL .y Y.p i
        wrL .x p i (pick (flag a) u v)) (n := Y.p.length) (s := R.p) ⟨rfl, fun i => by simp⟩ (by
          rintro k p hk ⟨h1, h2⟩
          refine ⟨_, by rw [bind_res, rdL_res (by omega), Res.bind_ok, bind_res, rdL_res hk, Res.bind_ok, wrL_res _ (by omega)], by simpa using h1, fun i => ?_⟩
          rw [getD_set (by omega), h2]
          by_cases hi : i = k
          · subst hi; simp
          · simp only [hi, if_false, lt_irrefl]
            rw [h2]
            simp only [show i < k + 1 ↔ i < k by omega])
    rw [bind_res, p1, Res.bind_ok]
    obtain ⟨q, q1, q2, q3⟩ := forT_inv (A := Arr) (P := fun k q => q.length = R.p.length ∧
      ∀ i, q.getD i 0 = if Y.p.length ≤ i ∧ i < Y.p.length + k then R.p.getD i 0 * ((1 + (W64 - flag a)) % W64) % W64 else p.getD i 0)
      (f := fun k p => do
        let u ← rdL .x p (Y.p.length + k)
        wrL .x p (Y.p.length + k) (u * ((1 + (W64 - flag a)) % W64) % W64)) (n := R.p.length - Y.p.length) (s := p) ⟨p2, fun i => by
          rw [if_neg (by omega)]⟩ (by
          rintro k q hk ⟨h1, h2⟩
          refine ⟨_, by rw [bind_res, rdL_res (by omega), Res.bind_ok, wrL_res _ (by omega)], by simpa using h1, fun i => ?_⟩
          rw [getD_set (by omega), h2]
          by_cases hi : i = Y.p.length + k
          · subst hi
            rw [if_pos rfl, if_neg (by omega), if_pos (by omega), p3, if_neg (by omega)]
          · rw [if_neg hi, h2]
            simp only [show (Y.p.length ≤ i ∧ i < Y.p.length + (k + 1)) ↔ (Y.p.length ≤ i ∧ i < Y.p.length + k) by omega])
    rw [bind_res, q1, Res.bind_ok]
    have hq : q = pickLimbs (flag a) R.p Y.p := by
      apply ext_getD (by rw [q2, pickLimbs_length])
      intro i hi
      rw [q2] at hi
      rw [q3, pickLimbs_getD _ _ _ _ hi, p3]
      by_cases h : i < Y.p.length
      · rw [if_neg (by omega), if_pos h, if_pos h]
      · rw [if_pos (by omega), if_neg h]
    rw [hq]
    rfl

/-- **C88** The same for the exchange. -/
theorem c88_swap_refines (X Y : Mpi) (a : Nat) : (condSwapT X Y a).res = toRes (condSwap X Y a) := by
  unfold condSwapT condSwap
  simp only [ifT, if_false]
  rw [bind_res, growT_res, toRes_bind]
  cases hg : grow X Y.p.length with
  | err => rfl
  | ub => rfl
  | ok R =>
    rw [ok_bind, ok_bind, bind_res, growT_res, toRes_bind]
    cases hh : grow Y R.p.length with
    | err => rfl
    | ub => rfl
    | ok S =>
      have hl := grow_length hh
      have hS : S.p.length = R.p.length := by
        have h1 := grow_length hg
        unfold grow at hh
        split at hh
        · exact nomatch hh
        · injection hh with hh
          subst hh
          simp; omega
      rw [ok_bind, ok_bind, bind_res, signT_res, toRes_bind]
      congr 1
      funext s
      rw [bind_res, signT_res, toRes_bind]
      congr 1
      funext t
      obtain ⟨⟨p, q⟩, p1, p2, p3, p4⟩ := forT_inv (A := Arr) (P := fun k pq => pq.1.length = R.p.length ∧ pq.2.length = R.p.length ∧
        ∀ i, pq.1.getD i 0 = (if i < k then pick (flag a) (R.p.getD i 0) (S.p.getD i 0) else R.p.getD i 0) ∧
          pq.2.getD i 0 = (if i < k then pick (flag a) (S.p.getD i 0) (R.p.getD i 0) else S.p.getD i 0))
        (f := fun i pq => do
          let u ← rdL .x pq.1 i
          let v ← rdL .y pq.2 i
          let p ← wrL .x pq.1 i (pick (flag a) u v)
          let q ← wrL .y pq.2 i (pick (flag a) v u)
          pure (p, q)) (n := R.p.length) (s := (R.p, S.p)) ⟨rfl, hS, fun i => by simp⟩ (by
            rintro k ⟨p, q⟩ hk ⟨h1, h2, h3⟩
            simp only at h1 h2 h3
            refine ⟨_, by
              rw [bind_res, rdL_res (by simp only; omega), Res.bind_ok, bind_res, rdL_res (by simp only; omega), Res.bind_ok,
                bind_res, wrL_res _ (by simp only; omega), Res.bind_ok, bind_res, wrL_res _ (by simp only; omega), Res.bind_ok, pure_res],
              by simpa using h1, by simpa using h2, fun i => ?_⟩
            simp only
            rw [getD_set (by omega), getD_set (by omega), (h3 k).1, (h3 k).2]
            by_cases hi : i = k
            · subst hi; simp
            · simp only [hi, if_false, lt_irrefl]
              rw [(h3 i).1, (h3 i).2]
              simp only [show i < k + 1 ↔ i < k by omega, and_self])
      simp only at p2 p3 p4
      rw [bind_res, p1, Res.bind_ok]
      have hp : p = List.zipWith (pick (flag a)) R.p S.p := by
        apply ext_getD (by simp [p2, hS])
        intro i hi
        rw [p2] at hi
        rw [(p4 i).1, if_pos hi]
        simp [hi, hS]
      have hq : q = List.zipWith (pick (flag a)) S.p R.p := by
        apply ext_getD (by simp [p3, hS])
        intro i hi
        rw [p3] at hi
        rw [(p4 i).2, if_pos hi]
        simp [hi, hS]
      simp only
      rw [hp, hq]
      rfl

/-! ## Both values of the condition look the same -/

/-- Equal sizes. -/
abbrev SameLen (X X' : Mpi) : Prop := X.p.length = X'.p.length

theorem growT_rel (a : Arr) {X X' : Mpi} (h : SameLen X X') (nb : Nat) : Rel SameLen (growT a X nb) (growT a X' nb) := by
  unfold growT
  have hn : X.p ≠ [] ↔ X'.p ≠ [] := by
    rw [← List.length_pos_iff, ← List.length_pos_iff, show X.p.length = X'.p.length from h]
  refine Rel.ifT Iff.rfl (fun _ => ⟨rfl, rfl⟩) fun _ => Rel.ifT (by rw [show X.p.length = X'.p.length from h]) (fun _ => Rel.ifT hn (fun _ => ?_) fun _ => ?_)
    fun _ => Rel.pure h
  · refine ⟨by simp only [show X.p.length = X'.p.length from h], ?_⟩
    show SameLen _ _
    simp [SameLen, show X.p.length = X'.p.length from h]
  · exact Rel.pure (by simp [SameLen, show X.p.length = X'.p.length from h])

theorem rdL_rel (a : Arr) {p p' : List Nat} (h : p.length = p'.length) (i : Nat) : Rel (fun _ _ => True) (rdL a p i) (rdL a p' i) := by
  refine ⟨rfl, ?_⟩
  simp only [rdL]
  by_cases hi : i < p.length
  · simp [hi, show i < p'.length by omega, ResRel]
  · simp [hi, show ¬i < p'.length by omega, ResRel]

theorem wrL_rel (a : Arr) {p p' : List Nat} (h : p.length = p'.length) (i v v' : Nat) :
    Rel (fun p p' => p.length = p'.length) (wrL a p i v) (wrL a p' i v') := by
  refine ⟨rfl, ?_⟩
  simp only [wrL]
  by_cases hi : i < p.length
  · simp [hi, show i < p'.length by omega, ResRel, h]
  · simp [hi, show ¬i < p'.length by omega, ResRel]

theorem flag_le {a : Nat} (h : a < 256) : flag a = 0 ∨ flag a = 1 := by
  revert h
  revert a
  decide +kernel

theorem signT_rel {X Y X' Y' : Mpi} {a a' : Nat} (h : a < 256) (h' : a' < 256) :
    Rel (fun _ _ => True) (signT (pickSign (flag a) X.s Y.s)) (signT (pickSign (flag a') X'.s Y'.s)) := by
  have hs : ∀ (X Y : Mpi) (a : Nat), a < 256 → ∃ b, (signT (pickSign (flag a) X.s Y.s)).res = .ok b := by
    intro X Y a h
    have hx : ∀ X : Mpi, X.s = 1 ∨ X.s = -1 := fun X => by unfold Mpi.s; split <;> simp
    unfold signT pickSign
    rcases flag_le h with h | h <;> rw [h]
    · rcases hx X with h1 | h1 <;> rw [h1] <;> simp
    · rcases hx Y with h1 | h1 <;> rw [h1] <;> simp
  obtain ⟨b, hb⟩ := hs X Y a h
  obtain ⟨b', hb'⟩ := hs X' Y' a' h'
  exact ⟨rfl, by rw [hb, hb']; trivial⟩

/-- **C88** Two conditional assignments of integers with as many limbs look the same, whatever the conditions, the signs and the limbs are. -/
theorem c88_assign_partial {X X' Y Y' : Mpi} (hX : X.p.length = X'.p.length) (hY : Y.p.length = Y'.p.length) {a a' : Nat} (ha : a < 256) (ha' : a' < 256) :
    (condAssignT X Y a).evs = (condAssignT X' Y' a').evs := by
  refine Rel.evs (P := fun _ _ => True) ?_
  unfold condAssignT
  simp only
  rw [← hY]
  refine Rel.bind (growT_rel _ hX _) fun R R' hR => Rel.bind (signT_rel ha ha') fun s s' _ => Rel.bind (P := fun p p' => p.length = p'.length) ?_ fun p p' hp => ?_
  · refine Rel.forT (P := fun (p p' : List Nat) => p.length = p'.length) (fun i p p' hp => ?_) _ hR
    exact Rel.bind (rdL_rel _ hp _) fun u u' _ => Rel.bind (rdL_rel _ hY _) fun v v' _ => wrL_rel _ hp _ _ _
  · rw [show R.p.length = R'.p.length from hR]
    refine Rel.bind (P := fun p p' => p.length = p'.length) ?_ fun p p' hp => Rel.pure trivial
    refine Rel.forT (P := fun (p p' : List Nat) => p.length = p'.length) (fun i p p' hp => ?_) _ hp
    exact Rel.bind (rdL_rel _ hp _) fun u u' _ => wrL_rel _ hp _ _ _

/-- **C88** The same for the exchange. -/
theorem c88_swap_partial {X X' Y Y' : Mpi} (hX : X.p.length = X'.p.length) (hY : Y.p.length = Y'.p.length) {a a' : Nat} (ha : a < 256) (ha' : a' < 256) :
    (condSwapT X Y a).evs = (condSwapT X' Y' a').evs := by
  refine Rel.evs (P := fun _ _ => True) ?_
  unfold condSwapT
  simp only
  rw [← hY]
  refine Rel.ifT Iff.rfl (fun h => absurd h id) fun _ => Rel.bind (growT_rel _ hX _) fun R R' hR => ?_
  rw [← show R.p.length = R'.p.length from hR]
  refine Rel.bind (growT_rel _ hY _) fun S S' hS => Rel.bind (signT_rel ha ha') fun s s' _ => Rel.bind (signT_rel ha ha') fun t t' _ =>
    Rel.bind (P := fun p p' => p.1.length = p'.1.length ∧ p.2.length = p'.2.length) ?_ fun p p' hp => Rel.pure trivial
  refine Rel.forT (P := fun (p p' : List Nat × List Nat) => p.1.length = p'.1.length ∧ p.2.length = p'.2.length) (fun i p p' hp => ?_) _ ⟨hR, hS⟩
  exact Rel.bind (rdL_rel _ hp.1 _) fun u u' _ => Rel.bind (rdL_rel _ hp.2 _) fun v v' _ =>
    Rel.bind (wrL_rel _ hp.1 _ _ _) fun q q' hq => Rel.bind (wrL_rel _ hp.2 _ _ _) fun r r' hr => Rel.pure ⟨hq, hr⟩

/-- An assignment that is done and one that is not done, of different numbers, the destination growing. -/
example : (condAssignT ⟨true, [5]⟩ ⟨false, [1, 2, 3]⟩ 1).evs = (condAssignT ⟨false, [7]⟩ ⟨true, [0, 0, 0]⟩ 0).evs :=
  c88_assign_partial rfl rfl (a := 1) (a' := 0) (by decide) (by decide)

example : (condSwapT ⟨true, [5, 6]⟩ ⟨false, [1]⟩ 1).evs.length = 20 ∧ (condSwapT ⟨true, [5, 6]⟩ ⟨false, [1]⟩ 0).evs.length = 20 := by decide +kernel

/-! ## The carries of a multiplication show -/

theorem carryT_res (c i : Nat) (d : List Nat) : (carryT c i d).res = toRes (orUb (mulFinish c d)) := by
  induction d generalizing c i with
  | nil => rfl
  | cons x r ih =>
    unfold carryT mulFinish
    rw [bind_res]
    show (ifT _ _ _).res = _
    simp only [ifT]
    by_cases h : (x + c) % W64 < c
    · simp only [h, if_true]
      rw [bind_res, ih]
      cases mulFinish 1 r <;> rfl
    · simp only [h, if_false]
      rfl

/-- **C88** (what shows). The number of events of the last loop of `mpi_mul_hlp` is three for every limb that the carry passes through: it tells how many limbs of a
secret intermediate number were `2^64 - 1`. -/
theorem c88_carry (i k d : Nat) (r : List Nat) (hd : d + 1 < W64) :
    (carryT 1 i (List.replicate k (W64 - 1) ++ d :: r)).res = .ok (List.replicate k 0 ++ (d + 1) :: r) ∧
    (carryT 1 i (List.replicate k (W64 - 1) ++ d :: r)).evs.length = 3 * (k + 1) := by
  induction k generalizing i with
  | zero =>
    have h : (d + 1) % W64 = d + 1 := Nat.mod_eq_of_lt hd
    constructor
    · rw [carryT_res]
      simp [mulFinish, h, orUb, toRes]
    · show (carryT 1 i (d :: r)).evs.length = 3
      unfold carryT
      simp only [h, show ¬(d + 1 < 1) by omega]
      rfl
  | succ k ih =>
    obtain ⟨h1, h2⟩ := ih (i + 1)
    have hw : (W64 - 1 + 1) % W64 = 0 := by decide
    rw [List.replicate_succ, List.cons_append]
    generalize List.replicate k (W64 - 1) ++ d :: r = l at *
    have hb : ∀ t : M (List Nat), t.res = .ok (List.replicate k 0 ++ (d + 1) :: r) →
        ((t >>= fun t => pure (0 :: t) : M (List Nat)).res = .ok (List.replicate (k + 1) 0 ++ (d + 1) :: r) ∧
        (t >>= fun t => pure (0 :: t) : M (List Nat)).evs = t.evs) := by
      intro t ht
      obtain ⟨te, tr⟩ := t
      simp only at ht
      subst ht
      constructor
      · rfl
      · show te ++ [] = te
        simp
    obtain ⟨h3, h4⟩ := hb _ h1
    unfold carryT
    simp only [hw, show (0 : Nat) < 1 by omega, ifT, if_true]
    constructor
    · exact h3
    · show ([_, _] ++ (Ev.br _ :: _ : List (Ev Arr)) : List (Ev Arr)).length = _
      rw [h4]
      simp only [List.length_append, List.length_cons, List.length_nil, h2]
      omega

/-! ## The exponent shows -/

/-- The exponent that a sequence of squarings and multiplications computes, for tables `W[i]` of the powers of the base. -/
def decode (l : List Op) : Nat := l.foldl (fun e o => match o with
  | .sq => 2 * e
  | .mul i => e + i) 0

/-- Continued from `e`. -/
def decodeFrom (e : Nat) (l : List Op) : Nat := l.foldl (fun e o => match o with
  | .sq => 2 * e
  | .mul i => e + i) e

theorem decodeFrom_append (e : Nat) (l m : List Op) : decodeFrom e (l ++ m) = decodeFrom (decodeFrom e l) m := by
  simp only [decodeFrom, List.foldl_append]

theorem decodeFrom_sq (k e : Nat) : decodeFrom e (List.replicate k .sq) = e * 2 ^ k := by
  induction k generalizing e with
  | zero => simp [decodeFrom]
  | succ k ih =>
    rw [List.replicate_succ]
    show decodeFrom (2 * e) _ = _
    rw [ih, pow_succ]; ring

/-- After the bits with the value `e`, the calls so far have the value `h`. -/
structure OpInv (ws e h : Nat) (s : OpSt) : Prop where
  split : ∃ p, e = h * 2 ^ s.nbits + p ∧ p < 2 ^ s.nbits ∧ s.wbits = p * 2 ^ (ws - s.nbits)
  start : s.state = 0 → h = 0
  bits : s.nbits < ws
  pend : s.state ≠ 2 → s.nbits = 0
  st : s.state ≤ 2

theorem bitOps_spec {ws e h b : Nat} {s : OpSt} (hi : OpInv ws e h s) (hb : b ≤ 1) : OpInv ws (2 * e + b) (decodeFrom h (bitOps ws s b).1) (bitOps ws s b).2 := by
  obtain ⟨⟨p, i1, i2, i3⟩, i5, hbits, hpend, hst⟩ := hi
  unfold bitOps
  by_cases c1 : b = 0 ∧ s.state = 0
  · rw [if_pos c1]
    have hn := hpend (by omega)
    have hh := i5 c1.2
    rw [hn, pow_zero] at i1 i2
    refine ⟨⟨p, ?_, by rw [hn]; exact i2, i3⟩, i5, hbits, hpend, hst⟩
    simp only [hn, pow_zero, decodeFrom, List.foldl_nil]; omega
  · rw [if_neg c1]
    by_cases c2 : b = 0 ∧ s.state = 1
    · rw [if_pos c2]
      have hn := hpend (by omega)
      rw [hn, pow_zero] at i1 i2
      refine ⟨⟨p, ?_, by rw [hn]; exact i2, i3⟩, fun h => by simp only at h; omega, hbits, hpend, hst⟩
      simp only [hn, pow_zero, decodeFrom, List.foldl_nil, List.foldl_cons]; omega
    · rw [if_neg c2]
      simp only
      have hw : s.wbits ||| (b <<< (ws - (s.nbits + 1))) = (2 * p + b) * 2 ^ (ws - (s.nbits + 1)) := by
        have hlt : b <<< (ws - (s.nbits + 1)) < 2 ^ (ws - s.nbits) := by
          rw [Nat.shiftLeft_eq, show ws - s.nbits = (ws - (s.nbits + 1)) + 1 by omega, pow_succ, Nat.mul_comm]
          exact Nat.mul_lt_mul_of_pos_left (by omega) (Nat.pow_pos (by decide))
        rw [i3, ← Nat.shiftLeft_eq p, ← Nat.shiftLeft_add_eq_or_of_lt hlt, Nat.shiftLeft_eq, Nat.shiftLeft_eq,
          show ws - s.nbits = (ws - (s.nbits + 1)) + 1 by omega, pow_succ]
        ring
      rw [hw]
      have hp2 : 2 * p + b < 2 ^ (s.nbits + 1) := by rw [pow_succ]; omega
      by_cases c3 : s.nbits + 1 = ws
      · rw [if_pos c3]
        rw [c3, Nat.sub_self, pow_zero, Nat.mul_one, decodeFrom_append, decodeFrom_sq]
        refine ⟨⟨0, ?_, by simp, by simp⟩, by simp, by simp only; omega, fun _ => rfl, by simp⟩
        simp only [decodeFrom, List.foldl_cons, List.foldl_nil, pow_zero]
        rw [i1, ← c3, pow_succ]; ring
      · rw [if_neg c3]
        refine ⟨⟨2 * p + b, ?_, hp2, rfl⟩, by simp, by simp only; omega, by simp, by simp⟩
        simp only [decodeFrom, List.foldl_nil]
        rw [i1, pow_succ]; ring

theorem bitsOps_spec {ws : Nat} : ∀ (l : List Nat) {e h : Nat} {s : OpSt}, (∀ b ∈ l, b ≤ 1) → OpInv ws e h s →
    OpInv ws (l.foldl (fun e b => 2 * e + b) e) (decodeFrom h (bitsOps ws l s).1) (bitsOps ws l s).2
  | [], _, _, _, _, hi => hi
  | b :: r, _, _, _, hl, hi => by
    have := bitsOps_spec r (fun x hx => hl x (by simp [hx])) (bitOps_spec hi (hl b (by simp)))
    simpa only [bitsOps, decodeFrom_append, List.foldl_cons] using this

theorem restOps_spec {ws : Nat} (hws6 : ws ≤ 6) {p : Nat} (hp : p < 2 ^ ws) : ∀ (k : Nat) {h : Nat}, k ≤ ws →
    decodeFrom h (restOps ws k (p * 2 ^ (ws - k))) = h * 2 ^ k + p % 2 ^ k := by
  intro k
  induction k with
  | zero => intro h _; simp [restOps, decodeFrom, Nat.mod_one]
  | succ k ih =>
    intro h hk
    have h64 : 2 ^ ws ≤ 64 := by
      calc 2 ^ ws ≤ 2 ^ 6 := Nat.pow_le_pow_right (by decide) hws6
        _ = 64 := by decide
    have hwk : 2 ^ (ws - k) ≤ 64 := le_trans (Nat.pow_le_pow_right (by decide) (by omega)) h64
    have hshift : (p * 2 ^ (ws - (k + 1))) <<< 1 % W64 = p * 2 ^ (ws - k) := by
      rw [Nat.shiftLeft_eq, pow_one, Nat.mul_assoc, ← pow_succ, show ws - (k + 1) + 1 = ws - k by omega]
      apply Nat.mod_eq_of_lt
      calc p * 2 ^ (ws - k) ≤ 64 * 64 := Nat.mul_le_mul (by omega) hwk
        _ < W64 := by decide
    have htest : (p * 2 ^ (ws - k)) &&& (1 <<< ws) ≠ 0 ↔ p / 2 ^ k % 2 = 1 := by
      have h1 := and_one_shl (p * 2 ^ (ws - k)) ws
      rw [Nat.testBit_eq_decide_div_mod_eq] at h1
      have h2 : p * 2 ^ (ws - k) / 2 ^ ws = p / 2 ^ k := by
        conv_lhs => rw [show ws = (ws - k) + k by omega, Nat.add_sub_cancel, pow_add, Nat.mul_comm p, Nat.mul_div_mul_left _ _ (Nat.pow_pos (by decide))]
      rw [h2] at h1
      by_cases hz : p * 2 ^ (ws - k) &&& 1 <<< ws = 0
      · rw [hz] at h1 ⊢
        simp at h1
        simp; omega
      · rw [bne_iff_ne.2 hz] at h1
        exact ⟨fun _ => of_decide_eq_true h1.symm, fun _ => hz⟩
    have hexp : ∀ c, c = p / 2 ^ k % 2 → (2 * h + c) * 2 ^ k + p % 2 ^ k = h * 2 ^ (k + 1) + p % 2 ^ (k + 1) := by
      intro c hc
      rw [hc, pow_succ, Nat.mod_mul]; ring
    unfold restOps
    simp only [hshift]
    by_cases hbit : p / 2 ^ k % 2 = 1
    · rw [if_pos (htest.2 hbit)]
      show decodeFrom (2 * h + 1) _ = _
      rw [ih (by omega), hexp 1 hbit.symm]
    · rw [if_neg (fun hc => hbit (htest.1 hc))]
      show decodeFrom (2 * h) _ = _
      rw [ih (by omega), ← hexp 0 (by omega)]
      rfl

/-- **C88** (what shows). The calls of an exponentiation and their operands determine the exponent. -/
theorem c88_exponent {E : Mpi} (hE : E.WF) : decode (expOps E) = E.mag := by
  obtain ⟨h1, h6⟩ := winSize_bounds (bitlenL E)
  show decodeFrom 0 (expOps E) = _
  unfold expOps
  simp only
  generalize winSize (bitlenL E) = ws at *
  have h := bitsOps_spec (ws := ws) (bitsOf E.p) (e := 0) (h := 0) (s := ⟨0, 0, 0⟩) (bitsOf_le _)
    ⟨⟨0, by simp, by simp, by simp⟩, fun _ => rfl, by simp only; omega, fun _ => rfl, by simp⟩
  rw [bitsOf_fold hE.1] at h
  obtain ⟨⟨p, i1, i2, i3⟩, -, hb, -, -⟩ := h
  rw [decodeFrom_append, i3, restOps_spec h6 (lt_of_lt_of_le i2 (Nat.pow_le_pow_right (by decide) (by omega))) _ (by omega), Nat.mod_eq_of_lt i2, ← i1]
  simp [Mpi.mag]

/-- The same calls, the same exponent. -/
theorem c88_exponent_unique {E F : Mpi} (hE : E.WF) (hF : F.WF) (h : expOps E = expOps F) : E.mag = F.mag := by
  rw [← c88_exponent hE, ← c88_exponent hF, h]

theorem runOps_append (N : Mpi) (mm tl : Nat) (W : List Mpi) (l m : List Op) (X : Mpi) :
    runOps N mm tl W (l ++ m) X = (runOps N mm tl W l X >>= runOps N mm tl W m) := by
  induction l generalizing X with
  | nil => rfl
  | cons o r ih =>
    cases o with
    | sq =>
      simp only [List.cons_append, runOps]
      cases montmul X X N mm tl with
      | ok Y => exact ih Y
      | err => rfl
      | ub => rfl
    | mul i =>
      simp only [List.cons_append, runOps]
      cases orUb W[i]? with
      | ok Z =>
        simp only [Out.bind_ok]
        cases montmul X Z N mm tl with
        | ok Y => exact ih Y
        | err => rfl
        | ub => rfl
      | err => rfl
      | ub => rfl

theorem runOps_sq (N : Mpi) (mm tl : Nat) (W : List Mpi) (k : Nat) (X : Mpi) : runOps N mm tl W (List.replicate k .sq) X = squares N mm tl k X := by
  induction k generalizing X with
  | zero => rfl
  | succ k ih =>
    simp only [List.replicate_succ, runOps, squares]
    cases montmul X X N mm tl with
    | ok Y => exact ih Y
    | err => rfl
    | ub => rfl

/-- The variables besides `X`. -/
def opSt (s : ExpSt) : OpSt := ⟨s.state, s.nbits, s.wbits⟩

theorem bitOps_run (N : Mpi) (mm tl ws : Nat) (W : List Mpi) (s : ExpSt) (b : Nat) : expBit N mm tl ws W s b =
    (runOps N mm tl W (bitOps ws (opSt s) b).1 s.X >>= fun X => .ok ⟨X, (bitOps ws (opSt s) b).2.state, (bitOps ws (opSt s) b).2.nbits,
      (bitOps ws (opSt s) b).2.wbits⟩) := by
  unfold expBit bitOps
  by_cases c1 : b = 0 ∧ s.state = 0
  · rw [if_pos c1, if_pos (show b = 0 ∧ (opSt s).state = 0 from c1)]
    rfl
  · rw [if_neg c1, if_neg (show ¬(b = 0 ∧ (opSt s).state = 0) from c1)]
    by_cases c2 : b = 0 ∧ s.state = 1
    · rw [if_pos c2, if_pos (show b = 0 ∧ (opSt s).state = 1 from c2)]
      simp only [runOps]
      cases montmul s.X s.X N mm tl <;> rfl
    · rw [if_neg c2, if_neg (show ¬(b = 0 ∧ (opSt s).state = 1) from c2)]
      simp only [opSt]
      by_cases c3 : s.nbits + 1 = ws
      · simp only [c3, if_true]
        simp only [runOps_append, runOps_sq]
        cases squares N mm tl ws s.X with
        | ok Y =>
          simp only [Out.bind_ok, runOps]
          cases orUb W[s.wbits ||| b <<< (ws - ws)]? with
          | ok Z =>
            simp only [Out.bind_ok]
            cases montmul Y Z N mm tl <;> rfl
          | err => rfl
          | ub => rfl
        | err => rfl
        | ub => rfl
      · simp only [c3, if_false]
        rfl

theorem bitsOps_run (N : Mpi) (mm tl ws : Nat) (W : List Mpi) : ∀ (l : List Nat) (s : ExpSt), expBits N mm tl ws W l s =
    (runOps N mm tl W (bitsOps ws l (opSt s)).1 s.X >>= fun X => .ok ⟨X, (bitsOps ws l (opSt s)).2.state, (bitsOps ws l (opSt s)).2.nbits,
      (bitsOps ws l (opSt s)).2.wbits⟩)
  | [], _ => rfl
  | b :: r, s => by
    simp only [expBits, bitsOps, bitOps_run, runOps_append]
    cases runOps N mm tl W (bitOps ws (opSt s) b).1 s.X with
    | ok X =>
      simp only [Out.bind_ok]
      exact bitsOps_run N mm tl ws W r _
    | err => rfl
    | ub => rfl

theorem restOps_run (N : Mpi) (mm tl ws : Nat) (W : List Mpi) : ∀ (k : Nat) (X : Mpi) (w : Nat), expRest N mm tl ws W k X w = runOps N mm tl W (restOps ws k w) X
  | 0, _, _ => rfl
  | k + 1, X, w => by
    simp only [expRest, restOps, runOps]
    cases montmul X X N mm tl with
    | ok Y =>
      simp only [Out.bind_ok]
      split
      · simp only [runOps]
        cases orUb W[1]? with
        | ok Z =>
          simp only [Out.bind_ok]
          cases montmul Y Z N mm tl with
          | ok V => exact restOps_run N mm tl ws W k V _
          | err => rfl
          | ub => rfl
        | err => rfl
        | ub => rfl
      · exact restOps_run N mm tl ws W k Y _
    | err => rfl
    | ub => rfl

/-- **C88** The main loops of `mbedtls_mpi_exp_mod` do exactly the calls in `expOps`, for every exponent, modulus, table and start. -/
theorem c88_calls (N : Mpi) (mm tl : Nat) (W : List Mpi) (E X : Mpi) :
    (do
      let s ← expBits N mm tl (winSize (bitlenL E)) W (bitsOf E.p) ⟨X, 0, 0, 0⟩
      expRest N mm tl (winSize (bitlenL E)) W s.nbits s.X s.wbits) = runOps N mm tl W (expOps E) X := by
  simp only [bitsOps_run, expOps, runOps_append, opSt]
  cases runOps N mm tl W (bitsOps (winSize (bitlenL E)) (bitsOf E.p) ⟨0, 0, 0⟩).1 X with
  | ok Y => exact restOps_run ..
  | err => rfl
  | ub => rfl

/-- An exponent of two limbs. -/
example : decode (expOps ⟨false, [65537, 3]⟩) = 65537 + 3 * W64 := c88_exponent ⟨LOk.cons (by decide) (LOk.cons (by decide) LOk.nil), by decide⟩

/-! ## The key shows -/

/-- **C88** (the harm). Let `F` be the blinded exponent `(P - 1) * r + DP` that `mbedtls_rsa_private` uses modulo `P`, whatever `r` is. With the number `f` that an
observer of its calls computes and the public key, `gcd(a^(E*f-1) - 1, N) = P` for every `a` that is prime to `P` and not a root of this degree modulo `Q`. -/
theorem c88_factors {P Q E DP r : Nat} (hP : P.Prime) (hQ : Q.Prime) (hd : E * DP % (P - 1) = 1 % (P - 1)) (hpos : 0 < E * DP) {F : Mpi} (hF : F.WF)
    (hm : F.mag = (P - 1) * r + DP) {a : Nat} (ha : ¬P ∣ a) (hq : ¬a ^ (E * decode (expOps F) - 1) ≡ 1 [MOD Q]) :
    Nat.gcd (a ^ (E * decode (expOps F) - 1) - 1) (P * Q) = P := by
  rw [c88_exponent hF, hm] at *
  have h0 : 0 < a := Nat.pos_of_ne_zero fun h => ha (h ▸ dvd_zero P)
  have hge : 1 ≤ E * ((P - 1) * r + DP) := by
    rw [Nat.mul_add]; omega
  have hdiv : P - 1 ∣ E * ((P - 1) * r + DP) - 1 := by
    refine (Nat.modEq_iff_dvd' hge).1 (Nat.ModEq.symm ?_)
    show _ % _ = _ % _
    rw [← hd, show E * ((P - 1) * r + DP) = E * DP + (P - 1) * (E * r) by ring, Nat.add_mul_mod_self_left]
  generalize E * ((P - 1) * r + DP) - 1 = k at *
  have h1 : P ∣ a ^ k - 1 := by
    refine (Nat.modEq_iff_dvd' (Nat.pow_pos h0)).1 (Nat.ModEq.symm ?_)
    obtain ⟨t, rfl⟩ := hdiv
    have hc : a.Coprime P := ((Nat.Prime.coprime_iff_not_dvd hP).2 ha).symm
    have := Nat.ModEq.pow_totient hc
    rw [Nat.totient_prime hP] at this
    rw [pow_mul]
    simpa using this.pow t
  have h2 : ¬Q ∣ a ^ k - 1 := fun h => hq (Nat.ModEq.symm ((Nat.modEq_iff_dvd' (Nat.pow_pos h0)).2 h))
  obtain ⟨c, hc⟩ := h1
  rw [hc]
  have h3 : Nat.gcd c Q = 1 := by
    have : Nat.Coprime Q c := (Nat.Prime.coprime_iff_not_dvd hQ).2 fun h => h2 (hc ▸ Dvd.dvd.mul_left h P)
    exact this.symm
  rw [Nat.gcd_mul_left, h3, Nat.mul_one]

/-- **C88** Such a number exists, unless `Q - 1` divides `E*f - 1`. -/
theorem c88_base_exists {P Q : Nat} (hP : P.Prime) (hQ : Q.Prime) (hne : P ≠ Q) {k : Nat} (hk : ¬Q - 1 ∣ k) :
    ∃ a, ¬P ∣ a ∧ ¬a ^ k ≡ 1 [MOD Q] := by
  have := Fact.mk hQ
  obtain ⟨g, hg⟩ := IsCyclic.exists_generator (α := (ZMod Q)ˣ)
  have ho : orderOf g = Q - 1 := by
    rw [orderOf_eq_card_of_forall_mem_zpowers hg, Nat.card_eq_fintype_card, ZMod.card_units_eq_totient, Nat.totient_prime hQ]
  have hco : Nat.Coprime P Q := (Nat.coprime_primes hP hQ).2 hne
  obtain ⟨a, a1, a2⟩ := Nat.chineseRemainder hco 1 (g : ZMod Q).val
  refine ⟨a, fun h => ?_, fun h => hk ?_⟩
  · have : P ∣ 1 := (Nat.modEq_zero_iff_dvd.1 (a1.symm.trans (Nat.modEq_zero_iff_dvd.2 h)))
    exact hP.one_lt.ne' (Nat.dvd_one.1 this)
  · rw [← ho]
    apply orderOf_dvd_of_pow_eq_one
    ext
    have h3 : ((g : ZMod Q).val) ^ k ≡ 1 [MOD Q] := (a2.symm.pow k).trans h
    have h4 := (ZMod.natCast_eq_natCast_iff _ _ _).2 h3
    simpa using h4

/-- `P = 11`, `Q = 13`, `E = 3`, `DP = 7`, `r = 5`: the exponent 57 is seen, and `gcd(2^170 - 1, 143) = 11`. -/
example : Nat.gcd (2 ^ (3 * decode (expOps ⟨false, [57]⟩) - 1) - 1) (11 * 13) = 11 := by
  have h : decode (expOps ⟨false, [57]⟩) = 57 := c88_exponent ⟨LOk.cons (by decide) LOk.nil, by decide⟩
  exact c88_factors (r := 5) (DP := 7) (E := 3) (by decide) (by decide) (by decide) (by decide) ⟨LOk.cons (by decide) LOk.nil, by decide⟩ (by decide) (by decide)
    (by rw [h]; decide +kernel)

end Verif.Bignum.Traced
