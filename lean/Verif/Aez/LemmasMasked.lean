import Verif.Masked
import Verif.Aez.Offsets

/-!
# Three random functions behind the offsets of AEZ
-/

namespace Verif.AezMask

open Verif Verif.Avg Verif.Oracle Verif.AezWide

/-! ## Blocks and numbers -/

theorem xr {a b c : Nat} (h : a ^^^ b = a ^^^ c) : b = c := by
  have := congrArg (a ^^^ ·) h
  simpa only [← Nat.xor_assoc, Nat.xor_self, Nat.zero_xor] using this

theorem xl {a b c : Nat} (h : b ^^^ a = c ^^^ a) : b = c := by
  rw [Nat.xor_comm b, Nat.xor_comm c] at h
  exact xr h

theorem xz {a b : Nat} (h : a ^^^ b = 0) : a = b := xr (a := b) (by rw [Nat.xor_self, Nat.xor_comm, h])

theorem block_inj {x y : Nat} (hx : x < 2 ^ 128) (hy : y < 2 ^ 128) (h : block x = block y) : x = y := by
  have := congrArg Fin.val h
  unfold block at this
  simp only at this
  rwa [Nat.mod_eq_of_lt hx, Nat.mod_eq_of_lt hy] at this

theorem block_val (x : B) : block x.1 = x := Fin.ext (Nat.mod_eq_of_lt x.2)

theorem at3_lt (f : Three) (j : Fin 3) (x : Nat) : at3 f j x < 2 ^ 128 := (f _).2

/-- Adding a number. -/
def plus (c : Nat) : Equiv.Perm B where
  toFun y := block (c ^^^ y.1)
  invFun y := block (c ^^^ y.1)
  left_inv y := by
    apply Fin.ext
    show (c ^^^ (c ^^^ y.1) % 2 ^ 128) % 2 ^ 128 = y.1
    rw [Nat.xor_mod_two_pow, Nat.mod_mod, ← Nat.xor_mod_two_pow, ← Nat.xor_assoc, Nat.xor_self, Nat.zero_xor, Nat.mod_eq_of_lt y.2]
  right_inv y := by
    apply Fin.ext
    show (c ^^^ (c ^^^ y.1) % 2 ^ 128) % 2 ^ 128 = y.1
    rw [Nat.xor_mod_two_pow, Nat.mod_mod, ← Nat.xor_mod_two_pow, ← Nat.xor_assoc, Nat.xor_self, Nat.zero_xor, Nat.mod_eq_of_lt y.2]

/-! ## The keys -/

/-- The key of the offsets, and the three values that make the hash. -/
abbrev Om := (Fin 3 → B) × (Fin 3 → B)

def offH' (k : AezSpec.Key) (j : Fin 3) : Nat := AezSpec.shift j.1 k.L ^^^ (if j = 2 then 0 else AezSpec.off k.J 1)

/-- Where the hash asks. -/
def hp (k : AezSpec.Key) (j : Fin 3) : Nat := (if j = 2 then 2 ^ 127 else 0) ^^^ offH' k j

def hpt (k : AezSpec.Key) (j : Fin 3) : Fin 3 × B := (0, block (hp k j))

theorem offH_0 (k : AezSpec.Key) : AezSpec.offH k 3 1 = offH' k 0 := by
  unfold AezSpec.offH offH'
  rw [if_neg (by norm_num), if_neg (by decide)]
  rfl
theorem offH_1 (k : AezSpec.Key) : AezSpec.offH k 4 1 = offH' k 1 := by
  unfold AezSpec.offH offH'
  rw [if_neg (by norm_num), if_neg (by decide)]
  rfl
theorem offH_2 (k : AezSpec.Key) : AezSpec.offH k 5 0 = offH' k 2 := by
  unfold AezSpec.offH offH'
  rw [if_pos rfl, if_pos rfl]
  rfl

theorem hash_eq (g : Fin 3 → Nat → Nat) (k : AezSpec.Key) :
    hash g k = (g 0 (hp k 0) ^^^ offH' k 0) ^^^ (g 0 (hp k 1) ^^^ offH' k 1) ^^^ (g 0 (hp k 2) ^^^ offH' k 2) := by
  unfold hash hp
  rw [offH_0, offH_1, offH_2, if_neg (by decide), if_neg (by decide), if_pos rfl, Nat.zero_xor, Nat.zero_xor]

theorem off_1 (v : Nat) : AezSpec.off v 1 = AezSpec.shift 3 v := by
  rw [off_of (i := 1) (e := 3) (b := 0) (by norm_num) (by norm_num), times_zero, Nat.xor_zero]

section
variable (κ : Fin 3 → B)

theorem offH_lt (j : Fin 3) : offH' (masks κ) j < 2 ^ 128 := by
  unfold offH'
  refine Nat.xor_lt_two_pow (shift_lt (κ 2).2 _) ?_
  split
  · exact Nat.two_pow_pos 128
  · rw [off_1]
    exact shift_lt (κ 1).2 _

theorem hp_lt (j : Fin 3) : hp (masks κ) j < 2 ^ 128 := by
  unfold hp
  refine Nat.xor_lt_two_pow ?_ (offH_lt κ j)
  split
  · exact Nat.pow_lt_pow_right (by norm_num) (by norm_num)
  · exact Nat.two_pow_pos 128

theorem offset_lt (t : Nat) : offset (masks κ) t < 2 ^ 128 := by
  rw [offset_mk]
  refine mk_lt ?_ t
  split
  · exact (κ 1).2
  · exact (κ 0).2

end

/-- The hash. -/
def D (ω : Om) : Nat := ((ω.2 0).1 ^^^ offH' (masks ω.1) 0) ^^^ ((ω.2 1).1 ^^^ offH' (masks ω.1) 1) ^^^ ((ω.2 2).1 ^^^ offH' (masks ω.1) 2)

theorem D_lt (ω : Om) : D ω < 2 ^ 128 :=
  Nat.xor_lt_two_pow (Nat.xor_lt_two_pow (Nat.xor_lt_two_pow (ω.2 0).2 (offH_lt _ _)) (Nat.xor_lt_two_pow (ω.2 1).2 (offH_lt _ _)))
    (Nat.xor_lt_two_pow (ω.2 2).2 (offH_lt _ _))

/-- The three functions with given values for the hash. -/
def over (ω : Om) (f : Three) : Three :=
  Function.update (Function.update (Function.update f (hpt (masks ω.1) 2) (ω.2 2)) (hpt (masks ω.1) 1) (ω.2 1)) (hpt (masks ω.1) 0) (ω.2 0)

def bad (ω : Om) : Prop :=
  hpt (masks ω.1) 0 = hpt (masks ω.1) 1 ∨ hpt (masks ω.1) 0 = hpt (masks ω.1) 2 ∨ hpt (masks ω.1) 1 = hpt (masks ω.1) 2

/-- Where a keyed function asks. -/
def ptn (ω : Om) (t x : Nat) : Nat := (if AezAll.small t then D ω else 0) ^^^ x ^^^ offset (masks ω.1) t

def pt (ω : Om) (t x : Nat) : Fin 3 × B := (which t, block (ptn ω t x))

def out (ω : Om) (t x : Nat) : Prop := pt ω t x = hpt (masks ω.1) 0 ∨ pt ω t x = hpt (masks ω.1) 1 ∨ pt ω t x = hpt (masks ω.1) 2

theorem ptn_lt (ω : Om) (t : Nat) {x : Nat} (hx : x < 2 ^ 128) : ptn ω t x < 2 ^ 128 := by
  unfold ptn
  refine Nat.xor_lt_two_pow (Nat.xor_lt_two_pow ?_ hx) (offset_lt _ _)
  split
  · exact D_lt ω
  · exact Nat.two_pow_pos 128

theorem hash_over {ω : Om} (h : ¬ bad ω) (f : Three) : hash (at3 (over ω f)) (masks ω.1) = D ω := by
  unfold bad at h
  rw [not_or, not_or] at h
  obtain ⟨h1, h2, h3⟩ := h
  rw [hash_eq]
  have e0 : over ω f (hpt (masks ω.1) 0) = ω.2 0 := by unfold over; rw [Function.update_self]
  have e1 : over ω f (hpt (masks ω.1) 1) = ω.2 1 := by unfold over; rw [Function.update_of_ne (Ne.symm h1), Function.update_self]
  have e2 : over ω f (hpt (masks ω.1) 2) = ω.2 2 := by
    unfold over; rw [Function.update_of_ne (Ne.symm h2), Function.update_of_ne (Ne.symm h3), Function.update_self]
  unfold at3 D
  unfold hpt at e0 e1 e2
  rw [e0, e1, e2]

theorem shape_over {ω : Om} (h : ¬ bad ω) (f : Three) {t x : Nat} (ho : ¬ out ω t x) :
    shape (at3 (over ω f)) (masks ω.1) (t, x) = (if t = 1 ∨ t = 2 then D ω else 0) ^^^ (f (pt ω t x)).1 := by
  unfold out at ho
  rw [not_or, not_or] at ho
  obtain ⟨h1, h2, h3⟩ := ho
  unfold shape
  rw [hash_over h]
  have : over ω f (pt ω t x) = f (pt ω t x) := by
    unfold over
    rw [Function.update_of_ne h1, Function.update_of_ne h2, Function.update_of_ne h3]
  congr 1
  show (over ω f (pt ω t x)).1 = _
  rw [this]

/-! ## The average -/

theorem E_over (κ : Fin 3 → B) (G : Three → ℚ) : E (fun h : Fin 3 → B => E (fun f : Three => G (over (κ, h) f))) = E G := by
  have step : ∀ (p : Fin 3 × B) (H : Three → ℚ), E (fun K : B => E (fun f : Three => H (Function.update f p K))) = E H := by
    intro p H
    rw [E_comm, ← E_update p H]
  unfold over
  dsimp only
  generalize hpt (masks κ) 0 = p0
  generalize hpt (masks κ) 1 = p1
  generalize hpt (masks κ) 2 = p2
  rw [E_update (2 : Fin 3)]
  simp only [Function.update_self, Function.update_of_ne (show (0 : Fin 3) ≠ 2 by decide), Function.update_of_ne (show (1 : Fin 3) ≠ 2 by decide)]
  have s2 : ∀ R : Fin 3 → B, E (fun K : B => E (fun f : Three => G (Function.update (Function.update (Function.update f p2 K) p1 (R 1)) p0 (R 0)))) =
      E (fun f : Three => G (Function.update (Function.update f p1 (R 1)) p0 (R 0))) := fun R =>
    step p2 (fun f => G (Function.update (Function.update f p1 (R 1)) p0 (R 0)))
  simp only [s2]
  rw [E_update (1 : Fin 3)]
  simp only [Function.update_self, Function.update_of_ne (show (0 : Fin 3) ≠ 1 by decide)]
  have s1 : ∀ R : Fin 3 → B, E (fun K : B => E (fun f : Three => G (Function.update (Function.update f p1 K) p0 (R 0)))) =
      E (fun f : Three => G (Function.update f p0 (R 0))) := fun R => step p1 (fun f => G (Function.update f p0 (R 0)))
  simp only [s1]
  rw [E_update (0 : Fin 3)]
  simp only [Function.update_self]
  rw [E_const]
  exact step p0 G

/-! ## Probabilities -/

theorem card_B : Fintype.card B = 2 ^ 128 := Fintype.card_fin _

/-- The probability of one block. -/
def c1 : ℚ := 1 / 2 ^ 128

theorem prob_key {p : Om → Prop} (i : Fin 3)
    (h : ∀ κ h b b', p (Function.update κ i b, h) → p (Function.update κ i b', h) → b = b') : prob p ≤ c1 := by
  refine Masked.prob_fst fun hh => ?_
  have := Masked.prob_coord (p := fun κ => p (κ, hh)) i fun κ b b' => h κ hh b b'
  rw [card_B] at this
  push_cast at this
  exact this

theorem prob_hash {p : Om → Prop} (i : Fin 3)
    (h : ∀ κ h b b', p (κ, Function.update h i b) → p (κ, Function.update h i b') → b = b') : prob p ≤ c1 := by
  refine Masked.prob_snd fun κ => ?_
  have := Masked.prob_coord (p := fun hh => p (κ, hh)) i fun hh b b' => h κ hh b b'
  rw [card_B] at this
  push_cast at this
  exact this

theorem D_update (κ h : Fin 3 → B) (b : B) : D (κ, Function.update h 0 b) =
    b.1 ^^^ (offH' (masks κ) 0 ^^^ ((h 1).1 ^^^ offH' (masks κ) 1) ^^^ ((h 2).1 ^^^ offH' (masks κ) 2)) := by
  unfold D
  dsimp only
  rw [Function.update_self, Function.update_of_ne (by decide), Function.update_of_ne (by decide)]
  rw [Nat.xor_assoc b.1, Nat.xor_assoc b.1]

/-- Different questions ask at different points. -/
theorem prob_meet {t t' x x' : Nat} (ht : Span t) (ht' : Span t') (hx : x < 2 ^ 128) (hx' : x' < 2 ^ 128) (hne : (t, x) ≠ (t', x')) :
    prob (fun ω => pt ω t x = pt ω t' x') ≤ c1 := by
  have red : ∀ ω, pt ω t x = pt ω t' x' → which t = which t' ∧ ptn ω t x = ptn ω t' x' := fun ω h =>
    ⟨congrArg Prod.fst h, block_inj (ptn_lt ω t hx) (ptn_lt ω t' hx') (congrArg Prod.snd h)⟩
  by_cases hs : AezAll.small t = AezAll.small t'
  · have red2 : ∀ ω, pt ω t x = pt ω t' x' → which t = which t' ∧ x ^^^ offset (masks ω.1) t = x' ^^^ offset (masks ω.1) t' := by
      intro ω h
      obtain ⟨h1, h2⟩ := red ω h
      unfold ptn at h2
      rw [hs, Nat.xor_assoc, Nat.xor_assoc] at h2
      exact ⟨h1, xr h2⟩
    by_cases htt : t = t'
    · subst htt
      refine le_of_eq_of_le (prob_zero fun ω h => ?_) (by unfold c1; positivity)
      exact hne (Prod.ext rfl (xl (red2 ω h).2))
    · have fin : ∀ {v w : Nat}, v < 2 ^ 128 → w < 2 ^ 128 → which t = which t' → x ^^^ mk t v = x' ^^^ mk t' v → x ^^^ mk t w = x' ^^^ mk t' w → v = w := by
        intro v w hv hw hwh h1 h2
        by_contra hvw
        refine htt (mk_inj (v := v ^^^ w) ht ht' hwh (Nat.xor_lt_two_pow hv hw) (fun h0 => hvw (xz h0)) ?_)
        rw [mk_xor hv hw, mk_xor hv hw]
        have e : ∀ a b c : Nat, b ^^^ c = (a ^^^ b) ^^^ (a ^^^ c) := fun a b c => by
          rw [Nat.xor_comm a b, Nat.xor_assoc, ← Nat.xor_assoc a a, Nat.xor_self, Nat.zero_xor]
        rw [e x, h1, h2, ← e x']
      by_cases hw : which t = which t'
      · have hJ : (8 ≤ t ∧ t < 16) ↔ (8 ≤ t' ∧ t' < 16) := by
          unfold which at hw
          by_cases a : t < 8 <;> by_cases b : t < 16 <;> by_cases c : t' < 8 <;> by_cases d : t' < 16 <;> simp only [a, b, c, d, if_true, if_false] at hw <;>
            first | omega | (split at hw <;> exact absurd hw (by decide))
        by_cases hj : 8 ≤ t ∧ t < 16
        · refine prob_key 1 fun κ h b b' p p' => ?_
          have q := (red2 _ p).2
          have q' := (red2 _ p').2
          rw [offset_mk, offset_mk, if_pos hj, if_pos (hJ.1 hj)] at q q'
          simp only [masks, Function.update_self] at q q'
          exact Fin.ext (fin b.2 b'.2 hw q q')
        · refine prob_key 0 fun κ h b b' p p' => ?_
          have q := (red2 _ p).2
          have q' := (red2 _ p').2
          rw [offset_mk, offset_mk, if_neg hj, if_neg (fun hh => hj (hJ.2 hh))] at q q'
          simp only [masks, Function.update_self] at q q'
          exact Fin.ext (fin b.2 b'.2 hw q q')
      · exact le_of_eq_of_le (prob_zero fun ω h => hw (red ω h).1) (by unfold c1; positivity)
  · refine prob_hash 0 fun κ h b b' p p' => ?_
    have q := (red _ p).2
    have q' := (red _ p').2
    unfold ptn at q q'
    rw [D_update] at q q'
    dsimp only at q q'
    generalize offH' (masks κ) 0 ^^^ ((h 1).1 ^^^ offH' (masks κ) 1) ^^^ ((h 2).1 ^^^ offH' (masks κ) 2) = R at q q'
    cases e : AezAll.small t <;> cases e' : AezAll.small t'
    · rw [e, e'] at hs; exact absurd rfl hs
    · rw [e, e'] at q q'
      simp only [Bool.false_eq_true, if_false, if_true] at q q'
      exact Fin.ext (xl (xl (xl (q.symm.trans q'))))
    · rw [e, e'] at q q'
      simp only [Bool.false_eq_true, if_false, if_true] at q q'
      exact Fin.ext (xl (xl (xl (q.trans q'.symm))))
    · rw [e, e'] at hs; exact absurd rfl hs

/-- A question hardly meets the hash. -/
theorem prob_one {t x : Nat} (hx : x < 2 ^ 128) (j : Fin 3) : prob (fun ω => pt ω t x = hpt (masks ω.1) j) ≤ c1 := by
  have red : ∀ ω, pt ω t x = hpt (masks ω.1) j → which t = 0 ∧ ptn ω t x = hp (masks ω.1) j := fun ω h =>
    ⟨congrArg Prod.fst h, block_inj (ptn_lt ω t hx) (hp_lt _ _) (congrArg Prod.snd h)⟩
  by_cases hw : which t = 0
  · cases e : AezAll.small t
    · have hj : ¬ (8 ≤ t ∧ t < 16) := by
        rintro ⟨h1, h2⟩
        unfold which at hw
        rw [if_neg (by omega), if_pos h2] at hw
        exact absurd hw (by decide)
      refine prob_key 2 fun κ h b b' p p' => ?_
      have q := (red _ p).2
      have q' := (red _ p').2
      unfold ptn hp offH' at q q'
      rw [offset_mk, if_neg hj] at q q'
      simp only [masks, e, Bool.false_eq_true, if_false, Function.update_self, Function.update_of_ne (show (0 : Fin 3) ≠ 2 by decide),
        Function.update_of_ne (show (1 : Fin 3) ≠ 2 by decide)] at q q'
      have := xl (xr (q.symm.trans q'))
      exact Fin.ext (shift_inj _ b.2 b'.2 this)
    · refine prob_hash 0 fun κ h b b' p p' => ?_
      have q := (red _ p).2
      have q' := (red _ p').2
      unfold ptn at q q'
      rw [D_update] at q q'
      simp only [e, if_true] at q q'
      exact Fin.ext (xl (xl (xl (q.trans q'.symm))))
  · exact le_of_eq_of_le (prob_zero fun ω h => hw (red ω h).1) (by unfold c1; positivity)

theorem prob_out {t x : Nat} (hx : x < 2 ^ 128) : prob (fun ω => out ω t x) ≤ 3 * c1 := by
  have h0 := prob_one (t := t) hx 0
  have h1 := prob_one (t := t) hx 1
  have h2 := prob_one (t := t) hx 2
  have a := Wide.prob_or (fun ω => pt ω t x = hpt (masks ω.1) 0) (fun ω => pt ω t x = hpt (masks ω.1) 1 ∨ pt ω t x = hpt (masks ω.1) 2)
  have b := Wide.prob_or (fun ω => pt ω t x = hpt (masks ω.1) 1) (fun ω => pt ω t x = hpt (masks ω.1) 2)
  unfold out
  linarith

theorem prob_bad : prob bad ≤ 3 * c1 := by
  have red : ∀ (κ : Fin 3 → B) i j, hpt (masks κ) i = hpt (masks κ) j → hp (masks κ) i = hp (masks κ) j := fun κ i j h =>
    block_inj (hp_lt _ _) (hp_lt _ _) (congrArg Prod.snd h)
  have h0 : prob (fun ω : Om => hpt (masks ω.1) 0 = hpt (masks ω.1) 1) ≤ c1 := by
    refine prob_key 2 fun κ h b b' p p' => ?_
    have fin : ∀ v < 2 ^ 128, AezSpec.shift 0 v = AezSpec.shift 1 v → v = 0 := by
      intro v hv h
      by_contra h0
      have : 1 = 2 := by
        refine mk_inj (v := v) (by unfold Span; omega) (by unfold Span; omega) (by decide) hv h0 ?_
        unfold mk
        rw [if_pos (by norm_num), if_pos (by norm_num)]
        simp only [AezSpec.times]
        simpa [AezSpec.shift] using h
      omega
    have q := red _ _ _ p
    have q' := red _ _ _ p'
    unfold hp offH' at q q'
    simp only [masks, Function.update_self, Function.update_of_ne (show (1 : Fin 3) ≠ 2 by decide), show ¬ ((0 : Fin 3) = 2) by decide,
      show ¬ ((1 : Fin 3) = 2) by decide, if_false] at q q'
    have z := fin b.1 b.2 (xl (xr q))
    have z' := fin b'.1 b'.2 (xl (xr q'))
    exact Fin.ext (z.trans z'.symm)
  have hj : ∀ i : Fin 3, i ≠ 2 → prob (fun ω : Om => hpt (masks ω.1) i = hpt (masks ω.1) 2) ≤ c1 := by
    intro i hi
    refine prob_key 1 fun κ h b b' p p' => ?_
    have q := red _ _ _ p
    have q' := red _ _ _ p'
    unfold hp offH' at q q'
    simp only [masks, Function.update_self, Function.update_of_ne (show (2 : Fin 3) ≠ 1 by decide), hi, if_false, if_true] at q q'
    have := xr (xr (q.trans q'.symm))
    rw [off_1, off_1] at this
    exact Fin.ext (shift_inj _ b.2 b'.2 this)
  have h1 := hj 0 (by decide)
  have h2 := hj 1 (by decide)
  have a := Wide.prob_or (fun ω : Om => hpt (masks ω.1) 0 = hpt (masks ω.1) 1) (fun ω => hpt (masks ω.1) 0 = hpt (masks ω.1) 2 ∨ hpt (masks ω.1) 1 = hpt (masks ω.1) 2)
  have b := Wide.prob_or (fun ω : Om => hpt (masks ω.1) 0 = hpt (masks ω.1) 2) (fun ω => hpt (masks ω.1) 1 = hpt (masks ω.1) 2)
  unfold bad
  linarith

end Verif.AezMask
