import Verif.Wrapper.SpecGame

/-! # Lemmas for C91 -/

namespace Verif.Wrapper.Game

open Verif Verif.Mac Verif.Avg

variable {ι : Type} {cls : ι → Class}

theorem length_toBytes {m : Nat} (b : Block m) : (toBytes b).length = m := by simp [toBytes]

theorem getD_toBytes {m : Nat} (b : Block m) (l : Bytes) (i : Fin m) : (toBytes b ++ l).getD i 0 = b i := by
  have h : (i : Nat) < (toBytes b).length := by rw [length_toBytes]; exact i.isLt
  rw [List.getD_eq_getElem?_getD, List.getElem?_append_left h, List.getElem?_eq_getElem h]
  simp [toBytes]

theorem toBytes_getD {m : Nat} {x : Bytes} (h : x.length = m) : toBytes (fun i : Fin m => x.getD i 0) = x := by
  apply List.ext_getElem
  · rw [length_toBytes, h]
  · intro i h1 h2
    simp [toBytes, h2]

theorem toBytes_tagB {x : Bytes} (h : x.length = 12) : toBytes (tagB x) = x := by
  exact toBytes_getD h

theorem tagB_toBytes (g : Block 12) : tagB (toBytes g) = g := by
  funext i
  have := getD_toBytes g [] i
  rwa [List.append_nil] at this

/-! ### The code and the world with functions -/

theorem blob_eq {H : Bytes → Bytes} (hH : ∀ m, (H m).length = 64) (S : Bytes → Bytes → Nat → UInt8) (kt ke : Block 32)
    (iv hd ser : Bytes) : blob H S (toBytes kt) (toBytes ke) iv hd ser =
      blobG (streamF S ke) iv ser (tagF H kt (authData iv hd ser)) := by
  unfold blob blobG xorZ streamF tagF
  simp only [toBytes_tagB (tagOf_length hH _ _)]

theorem unwrap_open {H : Bytes → Bytes} (hH : ∀ m, (H m).length = 64) (S : Bytes → Bytes → Nat → UInt8)
    (junk : Nat → UInt8) {w : Wrapper} {kt ke : Block 32} (hw : Good w (toBytes kt) (toBytes ke)) (C : Class) (y : Bytes) :
    Prod.fst <$> (unwrap H S junk w C y).res = openF (tagF H kt) (streamF S ke) C y := by
  unfold openF
  by_cases hy : y.length ≤ 28
  · rw [if_pos hy]
    unfold unwrap
    rw [if_pos hy]
    rfl
  · rw [if_neg hy, unwrap_eq hH S junk hw C y (by omega)]
    have hl : (y.drop (y.length - 12)).length = 12 := by rw [List.length_drop]; omega
    have hz : xorZ (streamF S ke) (tagB (y.drop (y.length - 12))) ((y.drop 16).take (y.length - 28)) =
        xorStream S (toBytes ke) (y.drop (y.length - 12)) ((y.drop 16).take (y.length - 28)) := by
      unfold xorZ streamF xorStream
      simp only [toBytes_tagB hl]
    simp only [hz]
    have hs : (xorStream S (toBytes ke) (y.drop (y.length - 12)) ((y.drop 16).take (y.length - 28))).length =
        y.length - 28 := by
      rw [xorStream_length, List.length_take, List.length_drop]; omega
    generalize xorStream S (toBytes ke) (y.drop (y.length - 12)) ((y.drop 16).take (y.length - 28)) = ser at *
    have hiff : (y.drop (y.length - 12) ≠ tagOf H (toBytes kt) (authData (y.take 16) (C.typeByte :: C.ctx) ser)) ↔
        (tagF H kt (authData (y.take 16) C.header ser) ≠ tagB (y.drop (y.length - 12))) := by
      refine not_congr ⟨fun h => ?_, fun h => ?_⟩
      · unfold tagF Class.header
        rw [h]
      · have := congrArg toBytes h
        unfold tagF Class.header at this
        rw [toBytes_tagB (tagOf_length hH _ _), toBytes_tagB hl] at this
        exact this.symm
    by_cases hc : y.drop (y.length - 12) ≠ tagOf H (toBytes kt) (authData (y.take 16) (C.typeByte :: C.ctx) ser)
    · rw [if_pos hc, if_pos (hiff.mp hc)]
      rfl
    · rw [if_neg hc, if_neg (fun h => hc (hiff.mpr h))]
      unfold finish
      rw [hs]
      cases C.deserialize ser with
      | exc e => rfl
      | ub => rfl
      | ok r =>
        by_cases h2 : r.2 ≠ y.length - 28
        · simp only [if_pos h2]
          rfl
        · simp only [if_neg h2]
          rfl

theorem serOf_some {C : Class} {N : Nat} {x : C.σ} {s : Bytes} (h : serOf C N x = some s) :
    C.serialize x = .ok s ∧ s.length = C.size x ∧ 16 + C.header.length + s.length ≤ N := by
  unfold serOf at h
  cases hx : C.serialize x with
  | exc e => rw [hx] at h; cases h
  | ub => rw [hx] at h; cases h
  | ok s' =>
    rw [hx] at h
    simp only at h
    split at h
    · next hc =>
      injection h with h
      subst h
      exact ⟨rfl, hc.1, hc.2⟩
    · cases h

theorem real_sim {H : Bytes → Bytes} (hH : ∀ m, (H m).length = 64) (S : Bytes → Bytes → Nat → UInt8)
    (junk : Nat → UInt8) (N : Nat) {w : Wrapper} {kt ke : Block 32} (hw : Good w (toBytes kt) (toBytes ke)) (A : Att cls) :
    ∀ R, real H S junk N w R A = sim (tagF H kt) (streamF S ke) N R A := by
  induction A with
  | done b => intro R; rfl
  | flip f ih => intro R; simp only [real, sim, ih]
  | wrap t x c ih =>
    intro R
    simp only [real, sim]
    cases hs : serOf (cls t) N x with
    | none => exact ih _ R
    | some s =>
      obtain ⟨h1, h2, _⟩ := serOf_some hs
      simp only [ih]
      refine congrArg E (funext fun iv => ?_)
      rw [wrap_eq hH S junk hw (cls t) x (toBytes iv) s (length_toBytes iv) h1 h2]
      simp only [returned, blob_eq hH]
      rfl
  | unwrap t y c ih =>
    intro R
    simp only [real, sim, ih, unwrap_open hH S junk hw]

/-! ### Values are between 0 and 1 -/

theorem sim_range (F : Bytes → Block 12) (Z : Block 12 → Nat → UInt8) (N : Nat) (A : Att cls) :
    ∀ R, 0 ≤ sim F Z N R A ∧ sim F Z N R A ≤ 1 := by
  induction A with
  | done b => intro R; cases b <;> simp [sim, bit]
  | flip f ih => intro R; exact ⟨E_nonneg fun b => (ih b R).1, E_le_one fun b => (ih b R).2⟩
  | wrap t x c ih =>
    intro R
    simp only [sim]
    cases serOf (cls t) N x with
    | none => exact ih _ R
    | some s => exact ⟨E_nonneg fun b => (ih _ _).1, E_le_one fun b => (ih _ _).2⟩
  | unwrap t y c ih =>
    intro R
    simp only [sim]
    split
    · exact ih _ R
    · exact ih _ R

theorem mid_range (Z : Block 12 → Nat → UInt8) (N : Nat) (A : Att cls) : ∀ R, 0 ≤ mid Z N R A ∧ mid Z N R A ≤ 1 := by
  induction A with
  | done b => intro R; cases b <;> simp [mid, bit]
  | flip f ih => intro R; exact ⟨E_nonneg fun b => (ih b R).1, E_le_one fun b => (ih b R).2⟩
  | wrap t x c ih =>
    intro R
    simp only [mid]
    cases serOf (cls t) N x with
    | none => exact ih _ R
    | some s =>
      exact ⟨E_nonneg fun b => E_nonneg fun g => (ih _ _).1, E_le_one fun b => E_le_one fun g => (ih _ _).2⟩
  | unwrap t y c ih =>
    intro R
    simp only [mid]
    split
    · exact ih _ R
    · exact ih _ R

theorem ideal_range (N : Nat) (A : Att cls) : ∀ R, 0 ≤ ideal N R A ∧ ideal N R A ≤ 1 := by
  induction A with
  | done b => intro R; cases b <;> simp [ideal, bit]
  | flip f ih => intro R; exact ⟨E_nonneg fun b => (ih b R).1, E_le_one fun b => (ih b R).2⟩
  | wrap t x c ih =>
    intro R
    simp only [ideal]
    cases serOf (cls t) N x with
    | none => exact ih _ R
    | some s =>
      exact ⟨E_nonneg fun b => E_nonneg fun g => E_nonneg fun z => (ih _ _).1,
        E_le_one fun b => E_le_one fun g => E_le_one fun z => (ih _ _).2⟩
  | unwrap t y c ih =>
    intro R
    simp only [ideal]
    split
    · exact ih _ R
    · exact ih _ R

/-! ### Collisions -/

theorem coll_nonneg (e : Nat) : ∀ n q, 0 ≤ coll e n q
  | _, 0 => le_refl _
  | n, q + 1 => add_nonneg (div_nonneg (Nat.cast_nonneg _) (by positivity)) (coll_nonneg e (n + 1) q)

theorem coll_mono (e : Nat) : ∀ n q, coll e n q ≤ coll e (n + 1) q
  | _, 0 => le_refl _
  | n, q + 1 => by
    refine add_le_add ?_ (coll_mono e (n + 1) q)
    refine div_le_div_of_nonneg_right ?_ (by positivity)
    push_cast
    linarith

theorem coll_step (e n q : Nat) : coll e n q ≤ coll e n (q + 1) := by
  have := coll_mono e n q
  have h0 : (0 : ℚ) ≤ n / 2 ^ e := by positivity
  rw [coll]
  linarith

theorem coll_eq (e n q : Nat) : coll e n q = (n * q + q * (q - 1) / 2) / 2 ^ e := by
  induction q generalizing n with
  | zero => simp [coll]
  | succ q ih =>
    rw [coll, ih]
    push_cast
    ring

/-! ### Tables -/

/-- A function with some values given by a table. -/
def over {N : Nat} (L : List (Bytes × Block 12)) (T : Dom N → Block 12) : Bytes → Block 12 := fun d =>
  match L.lookup d with
  | some g => g
  | none => ext T d

theorem over_nil {N : Nat} (T : Dom N → Block 12) : over [] T = ext T := rfl

theorem over_cons {N : Nat} (L : List (Bytes × Block 12)) (T : Dom N → Block 12) (a : Bytes) (ha : a.length ≤ N)
    (hL : L.lookup a = none) (g : Block 12) : over L (Function.update T ⟨a, ha⟩ g) = over ((a, g) :: L) T := by
  funext d
  unfold over
  rw [List.lookup_cons]
  by_cases h : d = a
  · subst h
    simp only [hL, beq_self_eq_true]
    unfold ext
    rw [dif_pos ha, Function.update_self]
  · have hb : (d == a) = false := by simpa using h
    rw [hb]
    simp only
    cases L.lookup d with
    | some g => rfl
    | none =>
      simp only
      unfold ext
      by_cases hd : d.length ≤ N
      · rw [dif_pos hd, dif_pos hd, Function.update_of_ne]
        intro e
        exact h (congrArg Subtype.val e)
      · rw [dif_neg hd, dif_neg hd]

/-- Tags that were drawn belong to strings that were returned. -/
def Past (cls : ι → Class) (Z : Block 12 → Nat → UInt8) (L : List (Bytes × Block 12)) (R : List (Bytes × Bytes)) : Prop :=
  ∀ p ∈ L, ∃ (t : ι) (iv : Block 16) (ser : Bytes), p.1 = authData (toBytes iv) (cls t).header ser ∧
    ((cls t).header, blobG Z (toBytes iv) ser p.2) ∈ R

/-- The random bytes of the table. -/
def ivOf (d : Bytes) : Block 16 := fun i => d.getD i 0

theorem ivOf_authData (iv : Block 16) (hd ser : Bytes) : ivOf (authData (toBytes iv) hd ser) = iv := by
  funext i
  unfold ivOf authData
  rw [List.append_assoc, getD_toBytes]

theorem lookup_none {L : List (Bytes × Block 12)} {iv : Block 16} (hd ser : Bytes)
    (h : (L.map fun p => ivOf p.1).contains iv = false) : L.lookup (authData (toBytes iv) hd ser) = none := by
  cases hl : L.lookup (authData (toBytes iv) hd ser) with
  | none => rfl
  | some g =>
    exfalso
    have hm : (authData (toBytes iv) hd ser, g) ∈ L := by
      rw [List.lookup_eq_some_iff] at hl
      obtain ⟨l1, l2, h1, _⟩ := hl
      rw [h1]
      simp
    have : iv ∈ L.map fun p => ivOf p.1 := List.mem_map.mpr ⟨_, hm, ivOf_authData iv hd ser⟩
    rw [← Bool.not_eq_true] at h
    exact h (by simpa using this)

end Verif.Wrapper.Game
