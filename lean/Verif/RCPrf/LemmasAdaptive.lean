import Verif.RCPrf.SpecAdaptive
import Verif.RCPrf.LemmasGameB

namespace Verif.RCPrf.Adapt

open Verif Spec Verif.Avg Verif.Oracle Verif.RCPrf.Game

variable (G : Bytes → Nat → UInt8) (n : Nat) (rs : List (Nat × Nat)) (M : Nat)

/-! ### Levels -/

theorem le_level (t j : Nat) : t ≤ level rs M t j := Nat.le_max_left _ _

theorem level_le {t : Nat} (ht : t ≤ M) (j : Nat) : level rs M t j ≤ M :=
  Nat.max_le.mpr ⟨ht, Nat.findGreatest_le _⟩

/-- The queries that come up: inner nodes lie inside a range. -/
def Good (q : Query) : Prop := q.1 ≤ M ∧ q.2 < 2 ^ (M - q.1) ∧ (q.1 = 0 ∨ stop rs q.1 q.2 = true)

variable {rs M}

theorem stop_of_level {t j s : Nat} (hg : Good rs M (t, j)) (hs : level rs M t j = s + 1) :
    stop rs (s + 1) (j / 2 ^ (s + 1 - t)) = true := by
  unfold level at hs
  generalize hg' : Nat.findGreatest (fun s => t ≤ s ∧ stop rs s (j / 2 ^ (s - t)) = true) M = g at hs
  by_cases c : g = s + 1
  · have := (Nat.findGreatest_of_ne_zero (P := fun s => t ≤ s ∧ stop rs s (j / 2 ^ (s - t)) = true) hg' (by omega)).2
    rw [c] at this
    exact this
  · have et : t = s + 1 := by omega
    have h : stop rs t j = true := by
      rcases hg.2.2 with h | h
      · have : t = 0 := h
        omega
      · exact h
    rw [← et, Nat.sub_self, Nat.pow_zero, Nat.div_one]
    exact h

theorem not_stop_of_level {t j l : Nat} (hl : l < M) (hs : level rs M t j ≤ l) :
    stop rs (l + 1) (j / 2 ^ (l + 1 - t)) = false := by
  by_contra hc
  have hc' : stop rs (l + 1) (j / 2 ^ (l + 1 - t)) = true := by simpa using hc
  have ht := le_level rs M t j
  have := Nat.le_findGreatest (P := fun s => t ≤ s ∧ stop rs s (j / 2 ^ (s - t)) = true) (m := l + 1) (n := M) (by omega)
    ⟨by omega, hc'⟩
  have h2 : Nat.findGreatest (fun s => t ≤ s ∧ stop rs s (j / 2 ^ (s - t)) = true) M ≤ level rs M t j := Nat.le_max_right _ _
  omega

/-! ### Contents -/

theorem half (j l t : Nat) (ht : t ≤ l) : j / 2 ^ (l + 1 - t) = j / 2 ^ (l - t) / 2 := by
  rw [Nat.div_div_eq_div_mul, ← Nat.pow_succ]
  congr 2
  omega

theorem div_lt {j l t d : Nat} (ht : t ≤ l) (hj : j < 2 ^ (l + d - t)) : j / 2 ^ (l - t) < 2 ^ d := by
  rw [Nat.div_lt_iff_lt_mul (Nat.two_pow_pos _), ← Nat.pow_add]
  rwa [show d + (l - t) = l + d - t by omega]

/-- One level down. -/
theorem below_succ (l : Nat) (k : Val n (l + 1)) {t : Nat} (ht : t ≤ l) (j : Nat) :
    below G n (l + 1) (toBytes k) t j =
      below G n l (toBytes (if j / 2 ^ (l - t) % 2 = 0 then (child G n l k).1 else (child G n l k).2)) t j := by
  unfold below
  rw [content, if_neg (by omega)]
  have hp : 2 ^ l = 2 ^ (l - t) * 2 ^ t := by rw [← Nat.pow_add]; congr 1; omega
  have htp : 0 < 2 ^ t := Nat.two_pow_pos _
  have e : j % 2 ^ (l + 1 - t) = j % 2 ^ (l - t) + 2 ^ (l - t) * (j / 2 ^ (l - t) % 2) := by
    rw [show l + 1 - t = l - t + 1 by omega, Nat.mod_pow_succ]
  have hm : j % 2 ^ (l - t) < 2 ^ (l - t) := Nat.mod_lt _ (Nat.two_pow_pos _)
  by_cases c : j / 2 ^ (l - t) % 2 = 0
  · simp only [c, Nat.mul_zero, Nat.add_zero] at e
    have h1 : j % 2 ^ (l - t) * 2 ^ t < 2 ^ l := by rw [hp]; exact Nat.mul_lt_mul_of_pos_right hm htp
    rw [e, if_pos h1, if_pos c, toBytes_fst]
  · rw [show j / 2 ^ (l - t) % 2 = 1 by omega, Nat.mul_one] at e
    have h1 : (j % 2 ^ (l - t) + 2 ^ (l - t)) * 2 ^ t = j % 2 ^ (l - t) * 2 ^ t + 2 ^ l := by rw [Nat.add_mul, ← hp]
    rw [e, h1, if_neg (by omega), if_neg c, toBytes_snd, Nat.add_sub_cancel]

/-! ### The worlds -/

variable (rs M)

/-- The answers when `N` gives the contents of stopping nodes above level `l`, and the table `R` those of the nodes at
level `l`. -/
def ans (N : Nat → Nat → Bytes) (l : Nat) {d : Nat} (R : Fin (2 ^ d) → Val n l) (q : Query) : Bytes :=
  if l < level rs M q.1 q.2 then
    below G n (level rs M q.1 q.2) (N (level rs M q.1 q.2) (q.2 / 2 ^ (level rs M q.1 q.2 - q.1))) q.1 q.2
  else below G n l (toBytes (entry (fun _ => 0) R (q.2 / 2 ^ (l - q.1)))) q.1 q.2

/-- Uniform nodes at level `l`. -/
def hyb (N : Nat → Nat → Bytes) (l d : Nat) (A : Att Query Bytes) : ℚ :=
  E (fun R : Fin (2 ^ d) → Val n l => play (ans G n rs M N l R) A)

variable {n} in
/-- New contents of the nodes at level `s`. -/
def put (N : Nat → Nat → Bytes) (s : Nat) {d : Nat} (S : Fin (2 ^ d) → Val n s) (s' p : Nat) : Bytes :=
  if s' = s then toBytes (entry (fun _ => 0) S p) else N s' p

/-- Uniform stopping nodes at all levels up to `l`. -/
def ideal : (l d : Nat) → (Nat → Nat → Bytes) → Att Query Bytes → ℚ
  | 0, d, N, A => hyb G n rs M N 0 d A
  | l + 1, d, N, A => E (fun S : Fin (2 ^ d) → Val n (l + 1) => ideal l (d + 1) (put N (l + 1) S) A)

/-- The answers when pairs of children are given. -/
def ansPairs (N : Nat → Nat → Bytes) (l : Nat) (P : Nat → Val n l × Val n l) (q : Query) : Bytes :=
  if l < level rs M q.1 q.2 then
    below G n (level rs M q.1 q.2) (N (level rs M q.1 q.2) (q.2 / 2 ^ (level rs M q.1 q.2 - q.1))) q.1 q.2
  else below G n l (toBytes (if q.2 / 2 ^ (l - q.1) % 2 = 0 then (P (q.2 / 2 ^ (l - q.1) / 2)).1
    else (P (q.2 / 2 ^ (l - q.1) / 2)).2)) q.1 q.2

theorem play_toPairs (N : Nat → Nat → Bytes) (l : Nat) (P : Nat → Val n l × Val n l) : ∀ A : Att Query Bytes,
    play P (toPairs G n rs M N l A) = play (ansPairs G n rs M N l P) A
  | .done b => rfl
  | .ask q c => by
    rw [toPairs, play, ansPairs]
    by_cases h : l < level rs M q.1 q.2
    · rw [if_pos h, if_pos h]
      exact play_toPairs N l P _
    · rw [if_neg h, if_neg h, play]
      exact play_toPairs N l P _

theorem toPairs_atMost (N : Nat → Nat → Bytes) (l : Nat) {q : Nat} {A : Att Query Bytes} (hA : AtMost q A) :
    AtMost q (toPairs G n rs M N l A) := by
  induction hA with
  | done b => exact .done b
  | @ask q s c _ ih =>
    rw [toPairs]
    split
    · exact (ih _).succ
    · exact .ask fun y => ih _

variable {rs M}

theorem toPairs_asks (N : Nat → Nat → Bytes) {l d : Nat} (hM : l + 1 + d = M) {A : Att Query Bytes} (hA : Asks (Good rs M) A) :
    Asks (· < 2 ^ d) (toPairs G n rs M N l A) := by
  induction hA with
  | done b => exact .done b
  | @ask q c hq _ ih =>
    rw [toPairs]
    split
    · exact ih _
    · rename_i h
      refine .ask ?_ fun y => ih _
      have ht := le_level rs M q.1 q.2
      have := hq.2.1
      rw [← half _ _ _ (by omega)]
      exact div_lt (by omega) (by rw [hM]; exact this)

/-- Uniform nodes at level `l + 1` are uniform stopping nodes at that level, and pairs of children of uniform nodes. -/
theorem hyb_split (N : Nat → Nat → Bytes) {l d : Nat} (hM : l + 1 + d = M) {A : Att Query Bytes} (hA : Asks (Good rs M) A) :
    hyb G n rs M N (l + 1) d A = E (fun S : Fin (2 ^ d) → Val n (l + 1) => E (fun R : Fin (2 ^ d) → Val n (l + 1) =>
      play (ansPairs G n rs M (put N (l + 1) S) l (fun p => child G n l (entry (fun _ => 0) R p))) A)) := by
  unfold hyb
  rw [E_merge (fun p : Fin (2 ^ d) => stop rs (l + 1) p.val)]
  refine congrArg E (funext fun S => congrArg E (funext fun R => play_congr (P := Good rs M) ?_ hA))
  rintro ⟨t, j⟩ hq
  have hj : j < 2 ^ (M - t) := hq.2.1
  have ht := le_level rs M t j
  unfold ans ansPairs
  simp only
  by_cases h : l + 1 < level rs M t j
  · rw [if_pos h, if_pos (by omega), put, if_neg (by omega)]
  · rw [if_neg h]
    have hlt : j / 2 ^ (l + 1 - t) < 2 ^ d := div_lt (by omega) (by rw [hM]; exact hj)
    by_cases h1 : l < level rs M t j
    · have e : level rs M t j = l + 1 := by omega
      rw [if_pos h1, e, put, if_pos rfl, entry_lt _ _ hlt, entry_lt _ _ hlt, merge, if_pos (stop_of_level hq e)]
    · rw [if_neg h1, entry_lt _ _ hlt, merge, not_stop_of_level (rs := rs) (M := M) (t := t) (j := j) (l := l) (by omega) (by omega), if_neg (by simp),
        below_succ G n l _ (by omega), ← half j l t (by omega), entry_lt _ _ hlt]

/-- Uniform pairs are uniform nodes at the next level. -/
theorem hyb_pairs (N : Nat → Nat → Bytes) {l d : Nat} (hM : l + 1 + d = M) {A : Att Query Bytes} (hA : Asks (Good rs M) A) :
    E (fun P : Fin (2 ^ d) → Val n l × Val n l => play (ansPairs G n rs M N l (fun p => entry (fun _ => 0, fun _ => 0) P p)) A) =
      hyb G n rs M N l (d + 1) A := by
  unfold hyb
  rw [E_pairs]
  refine congrArg E (funext fun S => play_congr (P := Good rs M) ?_ hA)
  rintro ⟨t, j⟩ hq
  have hj : j < 2 ^ (M - t) := hq.2.1
  have ht := le_level rs M t j
  unfold ans ansPairs
  simp only
  by_cases h : l < level rs M t j
  · rw [if_pos h, if_pos h]
  · rw [if_neg h, if_neg h]
    have hlt : j / 2 ^ (l - t) < 2 ^ (d + 1) := div_lt (by omega) (by rw [show l + (d + 1) = M by omega]; exact hj)
    have hp : 2 ^ (d + 1) = 2 ^ d * 2 := Nat.pow_succ 2 d
    have hlt2 : j / 2 ^ (l - t) / 2 < 2 ^ d := by omega
    rw [entry_lt _ _ hlt, entry_lt _ _ hlt2]
    generalize hc : j / 2 ^ (l - t) = c at *
    by_cases c0 : c % 2 = 0
    · rw [if_pos c0]
      congr 2
      exact congrArg S (Fin.ext (by simp only; omega))
    · rw [if_neg c0]
      congr 2
      exact congrArg S (Fin.ext (by simp only; omega))

/-- From level `l + 1` to level `l`. -/
theorem hyb_step (N : Nat → Nat → Bytes) {l d : Nat} (hM : l + 1 + d = M) {A : Att Query Bytes} (hA : Asks (Good rs M) A)
    {q : Nat} (hq : AtMost q A) {ε : ℚ} (h0 : 0 ≤ ε) (hε : BoundsAll G n rs M A ε) :
    |hyb G n rs M N (l + 1) d A - E (fun S : Fin (2 ^ d) → Val n (l + 1) => hyb G n rs M (put N (l + 1) S) l (d + 1) A)| ≤ q * ε := by
  rw [hyb_split G n N hM hA]
  refine abs_E_sub_le _ _ fun S => ?_
  rw [← hyb_pairs G n (put N (l + 1) S) hM hA]
  simp only [← play_toPairs]
  have hB := toPairs_asks G n (put N (l + 1) S) hM hA
  have hm := toPairs_atMost G n rs M (put N (l + 1) S) l hq
  have h1 := table_fresh (child G n l) (fun _ => 0) hB []
  have h2 := table_fresh (id : Val n l × Val n l → _) (fun _ => 0, fun _ => 0) hB []
  have hover : ∀ F : Nat → Val n l × Val n l, over [] F = F := fun F => rfl
  simp only [hover, id] at h1 h2
  rw [h1, h2]
  exact fresh_close' (u := child G n l) (v := id) h0 (fun p c L hr => hε l (by omega) (put N (l + 1) S) p c L hr) hm .all []

/-- From uniform nodes at level `l` to uniform stopping nodes at all levels up to `l`. -/
theorem hyb_ideal {A : Att Query Bytes} (hA : Asks (Good rs M) A)
    {q : Nat} (hq : AtMost q A) {ε : ℚ} (h0 : 0 ≤ ε) (hε : BoundsAll G n rs M A ε) : ∀ (l d : Nat) (N : Nat → Nat → Bytes),
    l + d = M → |hyb G n rs M N l d A - ideal G n rs M l d N A| ≤ (l * q : Nat) * ε
  | 0, d, N, _ => by
    rw [ideal, sub_self, abs_zero]
    simp
  | l + 1, d, N, hM => by
    have h1 := hyb_step G n N hM hA hq h0 hε
    have h2 := abs_E_sub_le (fun S : Fin (2 ^ d) → Val n (l + 1) => hyb G n rs M (put N (l + 1) S) l (d + 1) A)
      (fun S => ideal G n rs M l (d + 1) (put N (l + 1) S) A)
      fun S => hyb_ideal hA hq h0 hε l (d + 1) (put N (l + 1) S) (by omega)
    rw [ideal]
    have h3 := abs_sub_le (hyb G n rs M N (l + 1) d A)
      (E (fun S : Fin (2 ^ d) → Val n (l + 1) => hyb G n rs M (put N (l + 1) S) l (d + 1) A))
      (E (fun S : Fin (2 ^ d) → Val n (l + 1) => ideal G n rs M l (d + 1) (put N (l + 1) S) A))
    have e : (((l + 1) * q : Nat) : ℚ) * ε = q * ε + (l * q : Nat) * ε := by
      push_cast
      ring
    linarith

end Verif.RCPrf.Adapt
