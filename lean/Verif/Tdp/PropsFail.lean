import Verif.Tdp.ModelFail
import Verif.Tdp.Props
import Mathlib.GroupTheory.OrderOfElement
import Mathlib.FieldTheory.Finite.Basic

/-!
# Inversions after an inversion that ran out of memory: theorems (C86)
-/

namespace Verif.Tdp

open Verif

/-! ## Specification -/

/-- `x` is the inverse of `y` under the permutation. -/
def Right (k : Rsa) (x y : Bytes) : Prop := IsMsg k x ∧ beNat x ^ k.E ≡ beNat y [MOD k.N]

/-- A call in state `k` with the budget `b` does not stop between two stores to the blinding values.  With blinding values: it does not stop between the
change of `Vi` and the change of `Vf`.  Without: it stops before the first store to `Vf`, or it does not stop before the power has been computed, in which
case one of the first eleven candidates, the `j`-th, must have been invertible. -/
def Harmless (rng : Nat → Nat → Nat) (k : Rsa) (i : Nat) (b : Option Nat) : Prop :=
  match k.blind with
  | some _ => b ≠ some 2 ∧ b ≠ some 3
  | none => b = some 0 ∨ b = some 1 ∨ ∃ j, j < 11 ∧ (∀ m, m < j → Nat.gcd (rng (i + m) (k.len - 1)) k.N ≠ 1) ∧
      Nat.gcd (rng (i + j) (k.len - 1)) k.N = 1 ∧ ∀ n, b = some n → 5 + 2 * j ≤ n

/-- All calls of a history are harmless. -/
def HarmlessAll (rng : Nat → Nat → Nat) : Rsa → Nat → List CallF → Prop
  | _, _, [] => True
  | k, i, c :: cs => Harmless rng k i c.budget ∧
      HarmlessAll rng (invertF rng c.w k i c.budget c.arg).2.1 (invertF rng c.w k i c.budget c.arg).2.2 cs

/-! ## The model without failures -/

theorem drawF_none (rng : Nat → Nat → Nat) (N E len w t i : Nat) (old : Option (Nat × Nat)) (h : t ≠ 0) :
    drawF rng N E len w t i old none =
      match drawVf rng N len t i 0 0 with
      | (false, vi, vf, i') => ⟨none, some (vi, vf), i'⟩
      | (true, _, vf, i') => finishF N E w vf i' none := by
  induction t generalizing i old with
  | zero => exact absurd rfl h
  | succ t ih =>
    rw [drawF, drawVf]
    simp only [spend]
    by_cases h1 : mpiGcd (rng i (len - 1)) N = 1
    · rw [if_pos h1, if_pos h1]
    · rw [if_neg h1, if_neg h1]
      rcases t with _ | t
      · rfl
      · rw [ih _ _ (by omega)]
        rfl

/-- The outcome of `prepBlind` as a `Prep`. -/
def toPrep (r : Bool × (Nat × Nat) × Nat) : Prep := ⟨if r.1 then some none else none, some r.2.1, r.2.2⟩

theorem drawVf_one {rng : Nat → Nat → Nat} {N len t i vi vf vi' vf' i' : Nat} (h : drawVf rng N len t i vi vf = (true, vi', vf', i')) : vi' = 1 := by
  induction t generalizing i vi vf with
  | zero => simp [drawVf] at h
  | succ t ih =>
    rw [drawVf] at h
    by_cases h1 : mpiGcd (rng i (len - 1)) N = 1
    · rw [if_pos h1] at h
      simp only [Prod.mk.injEq, true_and] at h
      exact h.1 ▸ h1
    · rw [if_neg h1] at h
      exact ih h

theorem prepF_none {rng : Nat → Nat → Nat} {w : Nat} {k : Rsa} {i : Nat} (h1 : 1 < k.N) (ho : k.N % 2 = 1) :
    prepF rng w k i none = toPrep (prepBlind rng k i) := by
  unfold prepF prepBlind
  rcases k.blind with _ | ⟨vi, vf⟩
  · simp only
    rw [drawF_none _ _ _ _ _ _ _ _ (by decide)]
    rcases hdr : drawVf rng k.N k.len 11 i 0 0 with ⟨ok, vi, vf, i'⟩
    cases ok with
    | false => rfl
    | true =>
      have hvi : vi = 1 := drawVf_one hdr
      subst hvi
      simp only [finishF, spend]
      cases mpiInv vf k.N with
      | none => rfl
      | some inv =>
        simp only
        rw [mpiExpMod_odd ho]
        rfl
  · simp only [squareF, spend]
    rw [mpiMod_nat (by omega), mpiMod_nat (by omega)]
    rfl

theorem spendN_none (n : Nat) : spendN n none = some none := by
  induction n with
  | zero => rfl
  | succ n ih => simpa [spendN, spend] using ih

/-- Without failures the model is the one of C37. -/
theorem c86_refines {rng : Nat → Nat → Nat} {w : Nat} {k : Rsa} {s : Priv} {i : Nat} (h : TdpKey k s) (y : Bytes) :
    invertF rng w k i none y = invertString rng k i y := by
  unfold invertF invertString invertBuf
  by_cases hl : y.length ≠ msgSize
  · rw [if_pos hl, if_pos hl]
  rw [if_neg hl, if_neg hl]
  have : rsaPrivateF rng w k i none (y.take k.len) = rsaPrivate rng k i (y.take k.len) := by
    unfold rsaPrivateF rsaPrivate
    simp only [h.priv, spend]
    rw [prepF_none h.one_lt h.key.Nodd]
    rcases prepBlind rng k i with ⟨ok, ⟨vi, vf⟩, i'⟩
    cases ok with
    | false => rfl
    | true =>
      simp only [toPrep, if_true, spendN_none]
      rfl
  rw [this]
  rfl

/-! ## Blinding values that do not cancel -/

/-- What a successful call has done. -/
theorem invertF_ok {rng : Nat → Nat → Nat} {w : Nat} {k k' : Rsa} {s : Priv} {i i' : Nat} {b : Option Nat} (h : TdpKey k s) {y x : Bytes}
    (hr : invertF rng w k i b y = (.ok x, k', i')) :
    ∃ b0 b1 vi vf, spend b = some b0 ∧ (prepF rng w k i b0).left = some b1 ∧ (prepF rng w k i b0).blind = some (vi, vf) ∧
      k' = { k with blind := some (vi, vf) } ∧ IsMsg k x ∧ beNat x ^ k.E ≡ beNat y * (vi * vf ^ k.E) [MOD k.N] := by
  unfold invertF at hr
  split at hr
  · simp at hr
  rename_i hl
  split at hr
  · simp at hr
  split at hr
  · simp at hr
  have hl : y.length = 256 := not_not.1 hl
  rw [List.take_of_length_le (by rw [hl, h.len])] at hr
  unfold rsaPrivateF at hr
  simp only [h.priv] at hr
  cases hs : spend b with
  | none => simp [hs] at hr
  | some b0 =>
    simp only [hs] at hr
    by_cases hge : beNat y ≥ k.N
    · simp [if_pos hge] at hr
    simp only [if_neg hge] at hr
    cases hp : (prepF rng w k i b0).left with
    | none => simp [hp] at hr
    | some b1 =>
      simp only [hp] at hr
      cases hn : spendN 20 b1 with
      | none => simp [hn] at hr
      | some _ =>
        simp only [hn] at hr
        cases hb : (prepF rng w k i b0).blind with
        | none => simp [hb] at hr
        | some v =>
          obtain ⟨vi, vf⟩ := v
          simp only [hb] at hr
          obtain ⟨z, hz, hlt, hpow⟩ := crtPrivate_defect h.key vi vf (beNat y) (rng (prepF rng w k i b0).next 28)
            (rng ((prepF rng w k i b0).next + 1) 28)
          rw [hz] at hr
          simp only [h.len] at hr
          rw [mpiWrite_some (lt_trans hlt h.size)] at hr
          simp only at hr
          rw [if_pos (by rw [beBytes_length]; rfl)] at hr
          simp only [Prod.mk.injEq, Res.ok.injEq] at hr
          obtain ⟨rfl, rfl, -⟩ := hr
          refine ⟨b0, b1, vi, vf, rfl, hp, hb, by rw [h.len, h.priv], isMsg_beBytes h.size hlt, ?_⟩
          rw [beNat_beBytes_of_lt (lt_trans hlt h.size)]
          exact hpow

theorem squareF_left {N vi vf i : Nat} {b b1 : Option Nat} (h : (squareF N vi vf i b).left = some b1) :
    (squareF N vi vf i b).blind = some (vi * vi % N, vf * vf % N) := by
  unfold squareF at h ⊢
  revert h
  repeat' split
  all_goals simp

/-- C86: a successful inversion in a state with blinding values `Vi`, `Vf`, whether they cancel or not: the power of the result is the argument times the
square of `Vi Vf^E`, and the next state has the square in place of `Vi Vf^E`. -/
theorem c86_defect {rng : Nat → Nat → Nat} {w : Nat} {k k' : Rsa} {s : Priv} {i i' : Nat} {b : Option Nat} (h : TdpKey k s) {vi vf : Nat}
    (hb : k.blind = some (vi, vf)) {y x : Bytes} (hr : invertF rng w k i b y = (.ok x, k', i')) :
    IsMsg k x ∧ beNat x ^ k.E ≡ beNat y * (vi * vf ^ k.E) ^ 2 [MOD k.N] ∧
      ∃ vi' vf', k' = { k with blind := some (vi', vf') } ∧ vi' * vf' ^ k.E ≡ (vi * vf ^ k.E) ^ 2 [MOD k.N] := by
  obtain ⟨b0, b1, vi', vf', -, h2, h3, h4, h5, h6⟩ := invertF_ok h hr
  unfold prepF at h2 h3
  rw [hb] at h2 h3
  simp only at h2 h3
  rw [squareF_left h2] at h3
  simp only [Option.some.injEq, Prod.mk.injEq] at h3
  obtain ⟨rfl, rfl⟩ := h3
  have hsq : vi * vi % k.N * (vf * vf % k.N) ^ k.E ≡ (vi * vf ^ k.E) ^ 2 [MOD k.N] := by
    refine ((Nat.mod_modEq _ _).mul ((Nat.mod_modEq _ _).pow _)).trans ?_
    have e : vi * vi * (vf * vf) ^ k.E = (vi * vf ^ k.E) ^ 2 := by rw [mul_pow]; ring
    rw [e]
  exact ⟨h5, h6.trans (hsq.mul_left _), _, _, h4, hsq⟩

/-! ## Harmless failures -/

theorem drawF_harmless {rng : Nat → Nat → Nat} {N E len w : Nat} (ho : N % 2 = 1) (h1 : 1 < N) {j t i : Nat} {old : Option (Nat × Nat)} {b : Option Nat}
    (ht : j < t) (hbad : ∀ m, m < j → Nat.gcd (rng (i + m) (len - 1)) N ≠ 1) (hgood : Nat.gcd (rng (i + j) (len - 1)) N = 1)
    (hb : ∀ n, b = some n → 4 + 2 * j ≤ n) :
    ∃ vi vf, (drawF rng N E len w t i old b).blind = some (vi, vf) ∧ vi * vf ^ E ≡ 1 [MOD N] ∧ vf = rng (i + j) (len - 1) ∧
      (drawF rng N E len w t i old b).left = some (b.map fun n => n - (4 + 2 * j)) := by
  induction j generalizing t i old b with
  | zero =>
    obtain ⟨t, rfl⟩ : ∃ t', t = t' + 1 := ⟨t - 1, by omega⟩
    simp only [Nat.add_zero] at hgood
    obtain ⟨inv, hi, hlt, hm⟩ := mpiInv_spec h1 hgood
    have hv : inv ^ E % N * rng i (len - 1) ^ E ≡ 1 [MOD N] := by
      refine ((Nat.mod_modEq _ _).mul_right _).trans ?_
      rw [← mul_pow]
      have : inv * rng i (len - 1) ≡ 1 [MOD N] := by
        unfold Nat.ModEq
        rw [mul_comm, hm, Nat.mod_eq_of_lt h1]
      simpa using this.pow E
    refine ⟨inv ^ E % N, rng i (len - 1), ?_, hv, rfl, ?_⟩ <;>
    · have hg := mpiGcd_pos (a := rng i (len - 1)) (b := N) (by omega)
      rw [hgood] at hg
      rw [drawF]
      cases b with
      | none => simp [spend, finishF, hi, mpiExpMod_odd ho, hg]
      | some n =>
        obtain ⟨n, rfl⟩ : ∃ n', n = n' + 4 := ⟨n - 4, by have := hb n rfl; omega⟩
        simp [spend, finishF, hi, mpiExpMod_odd ho, hg]
  | succ j ih =>
    obtain ⟨t, rfl⟩ : ∃ t', t = t' + 1 := ⟨t - 1, by omega⟩
    have h0 := hbad 0 (by omega)
    simp only [Nat.add_zero] at h0
    obtain ⟨vi, vf, e1, e2, e4, e3⟩ := ih (t := t) (i := i + 1) (old := some (Nat.gcd (rng i (len - 1)) N, rng i (len - 1))) (b := b.map fun n => n - 2)
      (by omega) (fun m hm => by have := hbad (m + 1) (by omega); rwa [show i + (m + 1) = i + 1 + m by omega] at this)
      (by rwa [show i + (j + 1) = i + 1 + j by omega] at hgood)
      (fun n hn => by
        cases b with
        | none => cases hn
        | some n' =>
          have := hb n' rfl
          simp only [Option.map_some, Option.some.injEq] at hn
          omega)
    have e : drawF rng N E len w (t + 1) i old b =
        drawF rng N E len w t (i + 1) (some (Nat.gcd (rng i (len - 1)) N, rng i (len - 1))) (b.map fun n => n - 2) := by
      have hg := mpiGcd_pos (a := rng i (len - 1)) (b := N) (by omega)
      rw [drawF]
      cases b with
      | none => simp [spend, h0, hg]
      | some n =>
        obtain ⟨n, rfl⟩ : ∃ n', n = n' + 2 := ⟨n - 2, by have := hb n rfl; omega⟩
        simp [spend, h0, hg]
    rw [e]
    refine ⟨vi, vf, e1, e2, by rw [e4, show i + 1 + j = i + (j + 1) by omega], e3.trans ?_⟩
    cases b with
    | none => rfl
    | some n => simp only [Option.map_some, Option.some.injEq]; omega

theorem prepF_harmless {rng : Nat → Nat → Nat} {w : Nat} {k : Rsa} {i : Nat} {b b0 : Option Nat} (ho : k.N % 2 = 1) (h1 : 1 < k.N)
    (hb : BlindOk k) (hh : Harmless rng k i b) (hs : spend b = some b0) :
    ∀ vi vf, (prepF rng w k i b0).blind = some (vi, vf) → vi * vf ^ k.E ≡ 1 [MOD k.N] := by
  unfold prepF
  unfold Harmless at hh
  rcases hbl : k.blind with _ | ⟨vi0, vf0⟩
  · rw [hbl] at hh
    simp only at hh ⊢
    rcases hh with rfl | rfl | ⟨j, hj, hbad, hgood, hn⟩
    · cases hs
    · cases hs
      intro vi vf h
      rw [drawF] at h
      simp [spend] at h
    · obtain ⟨vi', vf', e1, e2, -, -⟩ := drawF_harmless (E := k.E) (w := w) (old := none) (b := b0) ho h1 hj hbad hgood (fun n hn' => by
        subst hn'
        cases b with
        | none => cases hs
        | some m =>
          cases m with
          | zero => cases hs
          | succ m =>
            simp only [spend, Option.some.injEq] at hs
            subst hs
            have := hn _ rfl
            omega)
      intro vi vf h
      rw [e1] at h
      simp only [Option.some.injEq, Prod.mk.injEq] at h
      obtain ⟨rfl, rfl⟩ := h
      exact e2
  · have h0 := hb vi0 vf0 hbl
    rw [hbl] at hh
    simp only at hh ⊢
    have h2 : ∀ vf, vf ≡ vf0 * vf0 [MOD k.N] → vi0 * vi0 % k.N * vf ^ k.E ≡ 1 [MOD k.N] := by
      intro vf hv
      refine ((Nat.mod_modEq _ _).mul (hv.pow _)).trans ?_
      have e : vi0 * vi0 * (vf0 * vf0) ^ k.E = (vi0 * vf0 ^ k.E) * (vi0 * vf0 ^ k.E) := by rw [mul_pow]; ring
      rw [e]
      simpa using h0.mul h0
    intro vi vf h
    have hc : (squareF k.N vi0 vf0 i b0).blind = some (vi0, vf0) ∨ (squareF k.N vi0 vf0 i b0).blind = some (vi0 * vi0 % k.N, vf0 * vf0) ∨
        (squareF k.N vi0 vf0 i b0).blind = some (vi0 * vi0 % k.N, vf0 * vf0 % k.N) := by
      match b, hs, hh with
      | none, hs, _ => cases hs; exact .inr (.inr rfl)
      | some 0, hs, _ => cases hs
      | some 1, hs, _ => cases hs; exact .inl rfl
      | some 2, _, hh => exact absurd rfl hh.1
      | some 3, _, hh => exact absurd rfl hh.2
      | some 4, hs, _ => cases hs; exact .inr (.inl rfl)
      | some (n + 5), hs, _ => cases hs; exact .inr (.inr rfl)
    rcases hc with hc | hc | hc <;> rw [hc] at h <;> simp only [Option.some.injEq, Prod.mk.injEq] at h <;> obtain ⟨rfl, rfl⟩ := h
    · exact h0
    · exact h2 _ rfl
    · exact h2 _ (Nat.mod_modEq _ _)

/-- Every call returns or throws, and changes only the blinding values. -/
theorem invertF_cases {rng : Nat → Nat → Nat} {w : Nat} {k : Rsa} {s : Priv} {i : Nat} {b : Option Nat} (h : TdpKey k s) {y : Bytes} :
    ((∃ x, (invertF rng w k i b y).1 = .ok x) ∨ (invertF rng w k i b y).1 = .exc .invalidArgument) ∧
      ((invertF rng w k i b y).2.1 = k ∨
        ∃ b0, spend b = some b0 ∧ (invertF rng w k i b y).2.1 = { k with blind := (prepF rng w k i b0).blind }) := by
  unfold invertF
  split
  · exact ⟨.inr rfl, .inl rfl⟩
  rename_i hl
  have hl : y.length = 256 := not_not.1 hl
  rw [h.priv]
  simp only [Option.isNone_some, Bool.false_eq_true, if_false]
  rw [if_neg (by rw [h.len, hl]; omega)]
  rw [List.take_of_length_le (by rw [hl, h.len])]
  unfold rsaPrivateF
  simp only [h.priv]
  cases hs : spend b with
  | none => exact ⟨.inr rfl, .inl rfl⟩
  | some b0 =>
    simp only
    by_cases hge : beNat y ≥ k.N
    · simp [if_pos hge]
    simp only [if_neg hge]
    cases hp : (prepF rng w k i b0).left with
    | none => exact ⟨.inr rfl, .inr ⟨b0, rfl, by simp⟩⟩
    | some b1 =>
      simp only
      cases hn : spendN 20 b1 with
      | none => exact ⟨.inr rfl, .inr ⟨b0, rfl, by simp⟩⟩
      | some _ =>
        simp only
        cases hb : (prepF rng w k i b0).blind with
        | none => exact ⟨.inr rfl, .inr ⟨b0, rfl, by simp [hb]⟩⟩
        | some v =>
          obtain ⟨vi, vf⟩ := v
          simp only
          obtain ⟨z, hz, hlt, hpow⟩ := crtPrivate_defect h.key vi vf (beNat y) (rng (prepF rng w k i b0).next 28)
            (rng ((prepF rng w k i b0).next + 1) 28)
          rw [hz]
          simp only [h.len]
          rw [mpiWrite_some (lt_trans hlt h.size)]
          simp only
          rw [if_pos (by rw [beBytes_length]; rfl)]
          exact ⟨.inl ⟨_, rfl⟩, .inr ⟨b0, rfl, by simp [hb]⟩⟩

theorem invertF_harmless {rng : Nat → Nat → Nat} {w : Nat} {k : Rsa} {s : Priv} {i : Nat} {b : Option Nat} (h : TdpKey k s) (hb : BlindOk k)
    (hh : Harmless rng k i b) {y : Bytes} :
    (∀ x, (invertF rng w k i b y).1 = .ok x → Right k x y) ∧
      ∃ bl, (invertF rng w k i b y).2.1 = { k with blind := bl } ∧ BlindOk { k with blind := bl } := by
  constructor
  · intro x hx
    obtain ⟨b0, b1, vi, vf, h1, h2, h3, h4, h5, h6⟩ := invertF_ok h (Prod.ext hx rfl : invertF rng w k i b y = (.ok x, _, _))
    refine ⟨h5, h6.trans ?_⟩
    simpa using (prepF_harmless h.key.Nodd h.one_lt hb hh h1 vi vf h3).mul_left (beNat y)
  · rcases (invertF_cases (rng := rng) (w := w) (i := i) (b := b) h (y := y)).2 with he | ⟨b0, h1, he⟩
    · exact ⟨k.blind, he, hb⟩
    · exact ⟨_, he, fun vi vf hv => prepF_harmless h.key.Nodd h.one_lt hb hh h1 vi vf hv⟩

/-- C86: in every history of inversions of one object in which calls fail, but not between two stores to the blinding values, every call that returns
returns the inverse, and every call throws or returns. -/
theorem c86_history_partial {rng : Nat → Nat → Nat} {k : Rsa} {s : Priv} {i : Nat} (h : TdpKey k s) (hb : BlindOk k) {cs : List CallF}
    (hh : HarmlessAll rng k i cs) :
    List.Forall₂ (fun (c : CallF) (r : Res Bytes) => r = .exc .invalidArgument ∨ ∃ x, r = .ok x ∧ Right k x c.arg) cs (historyF rng k i cs).1 := by
  induction cs generalizing k i with
  | nil => exact .nil
  | cons c cs ih =>
    obtain ⟨h1, bl, h2, h3⟩ := invertF_harmless (w := c.w) (y := c.arg) h hb hh.1
    refine .cons ?_ ?_
    · rcases (invertF_cases (rng := rng) (w := c.w) (i := i) (b := c.budget) h (y := c.arg)).1 with ⟨x, hx⟩ | he
      · exact .inr ⟨x, hx, h1 x hx⟩
      · exact .inl he
    · have hh2 := hh.2
      have := ih (k := (invertF rng c.w k i c.budget c.arg).2.1) (i := (invertF rng c.w k i c.budget c.arg).2.2)
        (by rw [h2]; exact h.withBlind bl) (by rw [h2]; exact h3) hh2
      refine this.imp ?_
      intro a r hr
      rw [h2] at hr
      exact hr

/-! ## Harmful failures -/

/-- Calls without failures. -/
def plain (ys : List Bytes) : List CallF := ys.map fun y => ⟨y, none, 0⟩

theorem invertF_plain {rng : Nat → Nat → Nat} {w : Nat} {k : Rsa} {s : Priv} {i : Nat} (h : TdpKey k s) {v : Nat × Nat} (hb : k.blind = some v)
    {y : Bytes} (hy : IsMsg k y) : ∃ x, (invertF rng w k i none y).1 = .ok x := by
  obtain ⟨vi, vf⟩ := v
  obtain ⟨z, hz, hlt, -⟩ := crtPrivate_defect h.key (vi * vi % k.N) (vf * vf % k.N) (beNat y) (rng i 28) (rng (i + 1) 28)
  have hp : prepBlind rng k i = (true, (vi * vi % k.N, vf * vf % k.N), i) := by
    unfold prepBlind
    rw [hb]
    simp only
    rw [mpiMod_nat h.key.Npos, mpiMod_nat h.key.Npos]
  rw [c86_refines h, invertString_eq _ _ _ hy.1, invertBuf_of h hy hp hz (lt_trans hlt h.size)]
  exact ⟨_, rfl⟩

/-- C86: after any history that left the blinding values `Vi`, `Vf`, the `j`-th of the following calls without failures returns a message `x` with
`x^E = y (Vi Vf^E)^(2^(j+1))` modulo `N`. -/
theorem c86_sequence {rng : Nat → Nat → Nat} {k : Rsa} {s : Priv} {i : Nat} (h : TdpKey k s) {vi vf : Nat} (hb : k.blind = some (vi, vf))
    {ys : List Bytes} (hy : ∀ y ∈ ys, IsMsg k y) (j : Nat) (hj : j < ys.length) :
    ∃ x, (historyF rng k i (plain ys)).1[j]? = some (.ok x) ∧ IsMsg k x ∧
      beNat x ^ k.E ≡ beNat ys[j] * (vi * vf ^ k.E) ^ (2 ^ (j + 1)) [MOD k.N] := by
  induction ys generalizing k i vi vf j with
  | nil => cases hj
  | cons y ys ih =>
    obtain ⟨x, hx⟩ := invertF_plain (rng := rng) (w := 0) (i := i) h hb (hy y (by simp))
    obtain ⟨h1, h2, vi', vf', h3, h4⟩ := c86_defect h hb (Prod.ext hx rfl : invertF rng 0 k i none y = (.ok x, _, _))
    cases j with
    | zero => exact ⟨x, by simp [plain, historyF, hx], h1, by simpa using h2⟩
    | succ j =>
      have hk : TdpKey { k with blind := some (vi', vf') } s := h.withBlind _
      obtain ⟨x', e1, e2, e3⟩ := ih (k := { k with blind := some (vi', vf') }) (i := (invertF rng 0 k i none y).2.2) hk rfl
        (fun y hy' => hy y (by simp [hy'])) j (by simpa using hj)
      refine ⟨x', ?_, e2, e3.trans ?_⟩
      · simp only [plain, List.map_cons, historyF, List.getElem?_cons_succ]
        rw [h3]
        exact e1
      · simp only [List.getElem_cons_succ]
        refine (h4.pow (2 ^ (j + 1))).mul_left _ |>.trans ?_
        rw [← pow_mul, pow_succ 2 (j + 1), mul_comm 2]

/-- C86: the `j`-th of the following calls is right, for an argument that is prime to `N`, exactly if `(Vi Vf^E)^(2^(j+1))` is 1. -/
theorem c86_right_iff {rng : Nat → Nat → Nat} {k : Rsa} {s : Priv} {i : Nat} (h : TdpKey k s) {vi vf : Nat} (hb : k.blind = some (vi, vf))
    {ys : List Bytes} (hy : ∀ y ∈ ys, IsMsg k y) (j : Nat) (hj : j < ys.length) (hu : Nat.gcd (beNat ys[j]) k.N = 1) {x : Bytes}
    (hx : (historyF rng k i (plain ys)).1[j]? = some (.ok x)) :
    Right k x ys[j] ↔ (vi * vf ^ k.E) ^ (2 ^ (j + 1)) ≡ 1 [MOD k.N] := by
  obtain ⟨x', e1, e2, e3⟩ := c86_sequence (rng := rng) (i := i) h hb hy j hj
  rw [hx] at e1
  simp only [Option.some.injEq, Res.ok.injEq] at e1
  subst e1
  constructor
  · rintro ⟨-, hr⟩
    have : beNat ys[j] * (vi * vf ^ k.E) ^ (2 ^ (j + 1)) ≡ beNat ys[j] * 1 [MOD k.N] := by
      rw [mul_one]; exact e3.symm.trans hr
    exact Nat.ModEq.cancel_left_of_coprime (by rw [Nat.gcd_comm]; exact hu) this
  · intro h1
    refine ⟨e2, e3.trans ?_⟩
    simpa using h1.mul_left (beNat ys[j])

/-- C86: a call that fails between the change of `Vi` and the change of `Vf`: it throws, and `Vi Vf^E` becomes `Vi` (from 1). -/
theorem c86_half_update {rng : Nat → Nat → Nat} {w : Nat} {k : Rsa} {s : Priv} {i : Nat} (h : TdpKey k s) {vi vf : Nat} (hb : k.blind = some (vi, vf))
    (ho : BlindOk k) {b : Nat} (h2 : b = 2 ∨ b = 3) {y : Bytes} (hy : IsMsg k y) :
    ∃ vi', invertF rng w k i (some b) y = (.exc .invalidArgument, { k with blind := some (vi', vf) }, i) ∧ vi' * vf ^ k.E ≡ vi [MOD k.N] := by
  have hv := ho vi vf hb
  have key : ∀ vi', vi' ≡ vi * vi [MOD k.N] → vi' * vf ^ k.E ≡ vi [MOD k.N] := fun vi' hvi => by
    refine (hvi.mul_right _).trans ?_
    rw [mul_assoc]
    simpa using hv.mul_left vi
  unfold invertF
  rw [if_neg (by rw [hy.1]; decide), h.priv]
  simp only [Option.isNone_some, Bool.false_eq_true, if_false]
  rw [if_neg (by rw [h.len, hy.1]; omega), List.take_of_length_le (by rw [hy.1, h.len])]
  unfold rsaPrivateF
  simp only [h.priv]
  rcases h2 with rfl | rfl
  · refine ⟨vi * vi, ?_, key _ rfl⟩
    simp only [spend]
    rw [if_neg (by have := hy.2; omega)]
    simp [prepF, hb, squareF, spend]
  · refine ⟨vi * vi % k.N, ?_, key _ (Nat.mod_modEq _ _)⟩
    simp only [spend]
    rw [if_neg (by have := hy.2; omega)]
    simp [prepF, hb, squareF, spend]

/-- C86: a first call that fails while the common divisor of the first candidate and `N` is computed: it throws, and every following call without
failures returns 0. -/
theorem c86_half_drawn {rng : Nat → Nat → Nat} {w : Nat} {k : Rsa} {s : Priv} {i : Nat} (h : TdpKey k s) (hb : k.blind = none)
    {y : Bytes} (hy : IsMsg k y) {ys : List Bytes} (hys : ∀ y ∈ ys, IsMsg k y) (j : Nat) (hj : j < ys.length) :
    (invertF rng w k i (some 2) y).1 = .exc .invalidArgument ∧
      (historyF rng k i (⟨y, some 2, w⟩ :: plain ys)).1[j + 1]? = some (.ok (beBytes 256 0)) := by
  have he : invertF rng w k i (some 2) y = (.exc .invalidArgument, { k with blind := some (0, rng i (k.len - 1)) }, i + 1) := by
    unfold invertF
    rw [if_neg (by rw [hy.1]; decide), h.priv]
    simp only [Option.isNone_some, Bool.false_eq_true, if_false]
    rw [if_neg (by rw [h.len, hy.1]; omega), List.take_of_length_le (by rw [hy.1, h.len])]
    unfold rsaPrivateF
    simp only [h.priv, spend]
    rw [if_neg (by have := hy.2; omega)]
    simp [prepF, hb, drawF, spend]
  refine ⟨by rw [he], ?_⟩
  have hk : TdpKey { k with blind := some (0, rng i (k.len - 1)) } s := h.withBlind _
  obtain ⟨x, e1, e2, e3⟩ := c86_sequence (rng := rng) (i := i + 1) hk rfl (ys := ys) hys j hj
  have h0 : beNat x ^ k.E ≡ 0 ^ k.E [MOD k.N] := by
    have hE : k.E ≠ 0 := by
      intro hE
      have := h.key.edp
      rw [hE, zero_mul] at this
      have hP := h.key.P3
      have hlt : 1 < s.P - 1 := by omega
      unfold Nat.ModEq at this
      rw [Nat.zero_mod, Nat.mod_eq_of_lt hlt] at this
      omega
    refine e3.trans ?_
    rw [zero_mul, zero_pow (by positivity), zero_pow hE, mul_zero]
  have hx : x = beBytes 256 0 := by
    have hz : IsMsg k (beBytes 256 0) := isMsg_beBytes h.size h.key.Npos
    refine h.msg_eq e2 hz ?_
    rw [beNat_beBytes_of_lt (by positivity)]
    exact h0
  simp only [historyF, List.getElem?_cons_succ]
  rw [he]
  rw [hx] at e1
  exact e1

/-! ## A key that never recovers -/

/-- If `a^(e 2^n)` is not 1 modulo a prime `p` with `p - 1 = k 2^n`, `k` odd, then no `(a^e)^(2^m)` is. -/
theorem never_one {p k n a e : Nat} (hp : p.Prime) (hk : p - 1 = k * 2 ^ n) (ho : Nat.Coprime 2 k) (hne : ¬ a ^ (e * 2 ^ n) ≡ 1 [MOD p]) (m : Nat) :
    ¬ (a ^ e) ^ 2 ^ m ≡ 1 [MOD p] := by
  intro h
  haveI : Fact p.Prime := ⟨hp⟩
  have h1 : ((a : ZMod p) ^ e) ^ 2 ^ m = 1 := by
    have := (ZMod.natCast_eq_natCast_iff _ _ _).2 h
    push_cast at this
    exact this
  have h2 : orderOf ((a : ZMod p) ^ e) ∣ 2 ^ m := orderOf_dvd_of_pow_eq_one h1
  have hne0 : (a : ZMod p) ^ e ≠ 0 := by
    intro h0
    rw [h0, zero_pow (by positivity)] at h1
    exact zero_ne_one h1
  have h3 : orderOf ((a : ZMod p) ^ e) ∣ k * 2 ^ n := hk ▸ orderOf_dvd_of_pow_eq_one (ZMod.pow_card_sub_one_eq_one hne0)
  have h4 : Nat.Coprime (orderOf ((a : ZMod p) ^ e)) k := Nat.Coprime.coprime_dvd_left h2 (Nat.Coprime.pow_left _ ho)
  have h5 := orderOf_dvd_iff_pow_eq_one.1 (h4.dvd_of_dvd_mul_left h3)
  refine hne ((ZMod.natCast_eq_natCast_iff _ _ _).1 ?_)
  rw [Nat.cast_pow, pow_mul, h5, Nat.cast_one]

theorem ex_pow (m : Nat) : ¬ (243 ^ exKey.E) ^ 2 ^ m ≡ 1 [MOD exP] := by
  refine never_one exP_prime (k := 32501) (n := 1009) (by decide +kernel) (by decide) (fun h => ?_) m
  have h7 := powMod_eq exP 1030 1 243 (exKey.E * 2 ^ 1009) (by decide +kernel)
  have h8 : powMod exP 1030 1 243 (exKey.E * 2 ^ 1009) = 1 % exP := h7.trans ((congrArg (· % exP) (Nat.one_mul _)).trans h)
  exact absurd h8 (by decide +kernel)

/-- C86 does not hold after a half update: with the key and the random source of the examples, the first call is right, the second one fails between the
two updates and throws, and after that no call of any sequence of calls ever returns the inverse of an argument that is prime to `N`. -/
theorem c86_forever_false : ∃ k s rng y, TdpKey k s ∧ k.blind = none ∧ IsMsg k y ∧
    ∀ ys : List Bytes, (∀ y' ∈ ys, IsMsg k y' ∧ Nat.gcd (beNat y') k.N = 1) →
      let rs := (historyF rng k 0 (⟨y, none, 0⟩ :: ⟨y, some 3, 0⟩ :: plain ys)).1
      (∃ x, rs[0]? = some (.ok x) ∧ Right k x y) ∧ rs[1]? = some (.exc .invalidArgument) ∧
        ∀ j (hj : j < ys.length), ∃ x, rs[j + 2]? = some (.ok x) ∧ ¬ Right k x ys[j] := by
  refine ⟨exKey, exPriv, exRng, exMsg, exKey_tdp, rfl, exMsg_msg, fun ys hys => ?_⟩
  -- the first call
  have hg : Nat.gcd (exRng (0 + 0) (exKey.len - 1)) exKey.N = 1 := by decide +kernel
  obtain ⟨vi, vf, e1, e2, e3, -⟩ := drawF_harmless (rng := exRng) (E := exKey.E) (w := 0) (old := none) (b := none) exKey_tdp.key.Nodd
    exKey_tdp.one_lt (t := 11) (by decide : 0 < 11) (fun m hm => absurd hm (Nat.not_lt_zero m)) hg (fun n hn => by cases hn)
  have hvf : vf = 243 := e3.trans (by decide +kernel)
  subst hvf
  have hh : Harmless exRng exKey 0 none := .inr (.inr ⟨0, by decide, fun m hm => absurd hm (Nat.not_lt_zero m), hg, fun n hn => by cases hn⟩)
  have hc : CanBlind exRng exKey 0 := fun _ => ⟨0, by decide, hg⟩
  obtain ⟨x0, b0, i0, hi0, -⟩ := invertBuf_spec exKey_tdp exBlind hc exMsg_msg
  have hr : invertF exRng 0 exKey 0 none exMsg = (.ok x0, { exKey with blind := some b0 }, i0) := by
    rw [c86_refines exKey_tdp, invertString_eq _ _ _ exMsg_msg.1, hi0]
  obtain ⟨c1, c2, vi', vf', g1, -, g3, g4, -⟩ := invertF_ok exKey_tdp hr
  cases g1
  have hpd : prepF exRng 0 exKey 0 none = drawF exRng exKey.N exKey.E exKey.len 0 11 0 none none := rfl
  rw [hpd, e1] at g3
  cases g3
  have hb0 : b0 = (vi, 243) := by
    have := congrArg Rsa.blind g4
    simpa using this
  subst hb0
  -- the second call
  have hk1 : TdpKey { exKey with blind := some (vi, 243) } exPriv := exKey_tdp.withBlind _
  have hb1 : BlindOk { exKey with blind := some (vi, 243) } := by
    intro a b hab
    cases hab
    exact e2
  obtain ⟨v2, hr2, hv2⟩ := c86_half_update (rng := exRng) (w := 0) (i := i0) hk1 rfl hb1 (b := 3) (.inr rfl) exMsg_msg
  -- the others
  have hk2 : TdpKey { exKey with blind := some (v2, 243) } exPriv := exKey_tdp.withBlind _
  have hrs : (historyF exRng exKey 0 (⟨exMsg, none, 0⟩ :: ⟨exMsg, some 3, 0⟩ :: plain ys)).1 =
      .ok x0 :: .exc .invalidArgument :: (historyF exRng { exKey with blind := some (v2, 243) } i0 (plain ys)).1 := by
    simp only [historyF, hr, hr2]
  simp only [hrs]
  refine ⟨⟨x0, rfl, (invertF_harmless exKey_tdp exBlind hh (w := 0) (y := exMsg)).1 x0 (by rw [hr])⟩, rfl, fun j hj => ?_⟩
  have hys' : ∀ y' ∈ ys, IsMsg { exKey with blind := some (v2, 243) } y' := fun y' hy' => (hys y' hy').1
  obtain ⟨x, k1, k2, k3⟩ := c86_sequence (rng := exRng) (i := i0) hk2 rfl hys' j hj
  refine ⟨x, k1, fun hR => ?_⟩
  have h1 := (c86_right_iff (rng := exRng) (i := i0) hk2 rfl hys' j hj (hys _ (List.getElem_mem hj)).2 k1).1 hR
  have h2 : vi ^ 2 ^ (j + 1) ≡ 1 [MOD exKey.N] := (hv2.pow _).symm.trans h1
  have h3 : (243 ^ exKey.E) ^ 2 ^ (j + 1) ≡ 1 [MOD exKey.N] := by
    have h4 := e2.pow (2 ^ (j + 1))
    rw [mul_pow, one_pow] at h4
    have h5 := (h2.mul_right ((243 ^ exKey.E) ^ 2 ^ (j + 1))).symm
    rw [one_mul] at h5
    exact h5.trans h4
  exact ex_pow (j + 1) (h3.of_dvd ⟨exQ, rfl⟩)

/-! ## Examples -/

/-- A harmless history: the first call fails before it stores anything, the second one is right, the third one fails when the result is written. -/
example : HarmlessAll exRng exKey 0 [⟨exMsg, some 1, 0⟩] ∧ Harmless exRng exKey 0 none ∧ Harmless exRng { exKey with blind := some (1, 1) } 0 (some 24) ∧
    TdpKey exKey exPriv ∧ BlindOk exKey :=
  ⟨⟨.inr (.inl rfl), trivial⟩, .inr (.inr ⟨0, by decide, fun m hm => absurd hm (Nat.not_lt_zero m), by decide +kernel, fun n hn => by cases hn⟩),
    ⟨by decide, by decide⟩, exKey_tdp, exBlind⟩

example := c86_half_drawn (rng := exRng) (w := 0) (i := 0) exKey_tdp rfl exMsg_msg (ys := [exMsg, exMsg])
  (List.forall_mem_cons.2 ⟨exMsg_msg, List.forall_mem_cons.2 ⟨exMsg_msg, fun _ h => absurd h List.not_mem_nil⟩⟩) 1 (by decide)

end Verif.Tdp
