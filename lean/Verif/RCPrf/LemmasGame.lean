import Verif.RCPrf.SpecGame
import Verif.RCPrf.LemmasC

namespace Verif.RCPrf.Game

open Verif Spec Verif.Avg

variable (G : Bytes → Nat → UInt8) (n : Nat)

/-! ### Contents of nodes -/

theorem content_leaf : ∀ (l : Nat) (k : Bytes) (x : Nat), 1 ≤ l → x < 2 ^ l →
    content G n l k 0 x = treeLeaf G n l k x
  | 0, _, _, h, _ => by omega
  | 1, k, x, _, hx => by
    have : x = 0 ∨ x = 1 := by omega
    rcases this with rfl | rfl <;> simp [content, treeLeaf, width]
  | l + 2, k, x, _, hx => by
    have hp : 2 ^ (l + 2) = 2 ^ (l + 1) * 2 := Nat.pow_succ 2 (l + 1)
    rw [content, treeLeaf, if_neg (by omega)]
    by_cases c : x < 2 ^ (l + 1)
    · rw [if_pos c, if_pos c]
      exact content_leaf (l + 1) _ x (by omega) c
    · rw [if_neg c, if_neg c]
      exact content_leaf (l + 1) _ _ (by omega) (by omega)

theorem nodeAt_step (k : Bytes) : ∀ (d j : Nat), j < 2 ^ (d + 1) →
    nodeAt G k (d + 1) j =
      if j < 2 ^ d then nodeAt G (window G k 0 32) d j else nodeAt G (window G k 32 32) d (j - 2 ^ d)
  | 0, j, h => by
    have : j = 0 ∨ j = 1 := by omega
    rcases this with rfl | rfl <;> simp [nodeAt]
  | d + 1, j, h => by
    have hp : 2 ^ (d + 1) = 2 ^ d * 2 := Nat.pow_succ 2 d
    have hp2 : 2 ^ (d + 1 + 1) = 2 ^ (d + 1) * 2 := Nat.pow_succ 2 (d + 1)
    have ih := nodeAt_step k d (j / 2) (by omega)
    rw [nodeAt, ih]
    by_cases c : j < 2 ^ (d + 1)
    · rw [if_pos c, if_pos (by omega), nodeAt]
    · rw [if_neg c, if_neg (by omega), nodeAt]
      have e1 : (j - 2 ^ (d + 1)) / 2 = j / 2 - 2 ^ d := by omega
      have e2 : (j - 2 ^ (d + 1)) % 2 = j % 2 := by omega
      rw [e1, e2]

theorem content_node : ∀ (l : Nat) (k : Bytes) (t j : Nat), 1 ≤ t → t ≤ l → j < 2 ^ (l - t) →
    content G n l k t (j * 2 ^ t) = nodeAt G k (l - t) j
  | 0, _, _, _, h1, h2, _ => by omega
  | l + 1, k, t, j, h1, h2, hj => by
    rw [content]
    by_cases c : t = l + 1
    · subst c
      simp [nodeAt]
    · rw [if_neg c]
      have e : l + 1 - t = (l - t) + 1 := by omega
      rw [e] at hj ⊢
      have hw : width n l = 32 := by
        obtain ⟨m, rfl⟩ : ∃ m, l = m + 1 := ⟨l - 1, by omega⟩
        rfl
      have hp : 2 ^ l = 2 ^ (l - t) * 2 ^ t := by rw [← Nat.pow_add]; congr 1; omega
      have hp1 : 2 ^ (l - t + 1) = 2 ^ (l - t) * 2 := Nat.pow_succ 2 _
      have ht : 0 < 2 ^ t := Nat.two_pow_pos _
      rw [nodeAt_step G k _ _ hj, hw]
      by_cases c2 : j < 2 ^ (l - t)
      · have : j * 2 ^ t < 2 ^ l := by rw [hp]; exact Nat.mul_lt_mul_of_pos_right c2 ht
        rw [if_pos this, if_pos c2]
        exact content_node l _ t j h1 (by omega) c2
      · have : ¬ j * 2 ^ t < 2 ^ l := by
          rw [hp]; exact Nat.not_lt.mpr (Nat.mul_le_mul_right _ (by omega))
        rw [if_neg this, if_neg c2, hp, ← Nat.sub_mul]
        exact content_node l _ t _ h1 (by omega) (by omega)

theorem toBytes_fst (l : Nat) (k : Val n (l + 1)) :
    toBytes (child G n l k).1 = window G (toBytes k) 0 (width n l) := by
  apply List.ext_getElem
  · simp [toBytes, window]
  · intro i h1 h2
    simp [toBytes, window, child]

theorem toBytes_snd (l : Nat) (k : Val n (l + 1)) :
    toBytes (child G n l k).2 = window G (toBytes k) (width n l) (width n l) := by
  apply List.ext_getElem
  · simp [toBytes, window]
  · intro i h1 h2
    simp [toBytes, window, child]

theorem cutAt_pos {P : Nat → Nat → Bool} {l x : Nat} (c : P (l + 1) x = true) : cutAt P (l + 1) x = .stop := by
  simp only [cutAt, c, if_true]

theorem cutAt_neg {P : Nat → Nat → Bool} {l x : Nat} (c : ¬ P (l + 1) x = true) :
    cutAt P (l + 1) x = .split (cutAt P l x) (cutAt P l (x + 2 ^ l)) := by
  simp only [cutAt, c]
  rfl

/-- What a node at or below an opened node holds is computed from the opened nodes. -/
theorem look_real (P : Nat → Nat → Bool) : ∀ (l x : Nat) (k : Val n l) (t j : Nat), t ≤ l →
    j < 2 ^ (l - t) → (t = 0 ∨ P t (x + j * 2 ^ t) = true) →
    look G n (real (child G n) (cutAt P l x) k) t (j * 2 ^ t) = content G n l (toBytes k) t (j * 2 ^ t)
  | 0, x, k, t, j, _, _, _ => rfl
  | l + 1, x, k, t, j, ht, hj, hP => by
    by_cases c : P (l + 1) x = true
    · rw [cutAt_pos c]
      rfl
    · rw [cutAt_neg c]
      rw [real, look, content]
      have hne : t ≠ l + 1 := by
        rintro rfl
        rcases hP with h | h
        · omega
        · have : j = 0 := by simpa using hj
          subst this
          simp only [Nat.zero_mul, Nat.add_zero] at h
          exact c h
      rw [if_neg hne]
      have e : l + 1 - t = (l - t) + 1 := by omega
      rw [e] at hj
      have hp : 2 ^ l = 2 ^ (l - t) * 2 ^ t := by rw [← Nat.pow_add]; congr 1; omega
      have hp1 : 2 ^ (l - t + 1) = 2 ^ (l - t) * 2 := Nat.pow_succ 2 _
      have htp : 0 < 2 ^ t := Nat.two_pow_pos _
      by_cases c2 : j < 2 ^ (l - t)
      · have : j * 2 ^ t < 2 ^ l := by rw [hp]; exact Nat.mul_lt_mul_of_pos_right c2 htp
        rw [if_pos this, if_pos this, look_real P l x _ t j (by omega) c2 hP, toBytes_fst]
      · have : ¬ j * 2 ^ t < 2 ^ l := by
          rw [hp]; exact Nat.not_lt.mpr (Nat.mul_le_mul_right _ (by omega))
        rw [if_neg this, if_neg this]
        have e2 : j * 2 ^ t - 2 ^ l = (j - 2 ^ (l - t)) * 2 ^ t := by rw [hp, ← Nat.sub_mul]
        have e3 : x + j * 2 ^ t = x + 2 ^ l + (j - 2 ^ (l - t)) * 2 ^ t := by
          rw [← e2]; omega
        rw [e2, look_real P l (x + 2 ^ l) _ t (j - 2 ^ (l - t)) (by omega) (by omega) (by rw [← e3]; exact hP),
          toBytes_snd]

/-! ### Which nodes a constrained key is made of -/

/-- An element without its contents. -/
def forget (e : Elem) : Elem := { e with node := .leaf [] }

theorem forget_fill (e : Elem) (c : Bytes) : fill (forget e) c = fill e c := rfl

theorem mkElem_shape (th sh a b : Nat) (x y : Node) :
    forget <$> mkElem th sh a b x = forget <$> mkElem th sh a b y := by
  unfold mkElem
  split
  · rfl
  split
  · rfl
  split
  · rfl
  split
  · rfl
  · rfl

theorem mkInner_shape (k k' : Bytes) (th sh a b : Nat) :
    forget <$> mkInner k th sh a b = forget <$> mkInner k' th sh a b := by
  have h := mkElem_shape th sh a b (.inner k) (.inner k')
  unfold mkInner
  cases h1 : mkElem th sh a b (.inner k) <;> cases h2 : mkElem th sh a b (.inner k') <;>
    rw [h1, h2] at h <;> simp at h ⊢
  · split <;> simp [h]
  · exact h

theorem map_single {x y : Res Elem} (h : forget <$> x = forget <$> y) :
    (List.map forget) <$> ((fun e => [e]) <$> x) = (List.map forget) <$> ((fun e => [e]) <$> y) := by
  cases x <;> cases y <;> simp at h ⊢ <;> exact h

theorem map_append {x y x' y' : Res (List Elem)} (h : (List.map forget) <$> x = (List.map forget) <$> x')
    (h' : (List.map forget) <$> y = (List.map forget) <$> y') :
    (List.map forget) <$> (x >>= fun l => y >>= fun r => pure (l ++ r)) =
      (List.map forget) <$> (x' >>= fun l => y' >>= fun r => pure (l ++ r)) := by
  cases x <;> cases x' <;> cases y <;> cases y' <;> simp at h h' ⊢ <;> simp_all

theorem gen_shape (th : Nat) : ∀ (sh : Nat) (k k' : Bytes) (a b mn mx : Nat),
    (List.map forget) <$> genFromNode G n th sh k a b mn mx =
      (List.map forget) <$> genFromNode G n th sh k' a b mn mx := by
  have hl : ∀ (k k' : Bytes) (a mn mx : Nat),
      (List.map forget) <$> (if mn ≠ mx then .ub else genLeaf G n th k a mn : Res (List Elem)) =
        (List.map forget) <$> (if mn ≠ mx then .ub else genLeaf G n th k' a mn : Res (List Elem)) := by
    intro k k' a mn mx
    split
    · rfl
    · unfold genLeaf mkLeaf
      have := mkElem_shape th 1 mn mn
      simp only
      generalize Node.leaf (leafValue G n k (if mn = a then false else true)) = x
      generalize Node.leaf (leafValue G n k' (if mn = a then false else true)) = y
      have := this x y
      cases h1 : mkElem th 1 mn mn x <;> cases h2 : mkElem th 1 mn mn y <;>
        rw [h1, h2] at this <;> simp at this ⊢ <;> exact this
  intro sh
  induction sh with
  | zero => intro k k' a b mn mx; unfold genFromNode; exact hl k k' a mn mx
  | succ sh ih =>
    intro k k' a b mn mx
    match sh, ih with
    | 0, _ => unfold genFromNode; exact hl k k' a mn mx
    | 1, _ => unfold genFromNode; exact hl k k' a mn mx
    | sh + 2, ih =>
      unfold genFromNode
      apply map_append
      · split
        · split
          · exact map_single (mkInner_shape _ _ _ _ _ _)
          · exact ih _ _ _ _ _ _
        · rfl
      · split
        · split
          · exact map_single (mkInner_shape _ _ _ _ _ _)
          · exact ih _ _ _ _ _ _
        · rfl

variable {h : Nat}

/-- `constrain_ok` with the elements named. -/
theorem constrain_gen (h2 : 2 ≤ h) (h64 : h ≤ 64) {r : Nat × Nat} (hr : Accepted h r) (k : Bytes) :
    ∃ es, genFromNode G n h h k 0 (maxLeafIndex h) r.1 r.2 = .ok es ∧
      RCPrf.constrain G n ⟨h, k⟩ r.1 r.2 = .ok ⟨h, es⟩ ∧ IsConstrained G n h k r.1 r.2 ⟨h, es⟩ := by
  obtain ⟨c, hc, hcon⟩ := RCPrf.constrain_ok (G := G) (n := n) (p := ⟨h, k⟩) h2 h64 hr.1 hr.2.1 hr.2.2
  unfold RCPrf.constrain at hc
  obtain ⟨es, he, hm⟩ := Res.bind_eq_ok.mp hc
  have hg := he
  unfold RCPrf.gen at hg
  have hmi := maxLeafIndex_eq (h := h) (by omega) h64
  have hp : 0 < 2 ^ (h - 1) := Nat.two_pow_pos _
  obtain ⟨g1, g2, g3⟩ := hr
  simp only [hmi] at hg
  rw [if_neg (by omega), if_neg (by omega), if_neg (by omega), ← hmi] at hg
  have hs : genFromNode G n h h k 0 (maxLeafIndex h) r.1 r.2 = .ok es := hg
  obtain ⟨s, rfl⟩ : ∃ s, h = s + 2 := ⟨h - 2, by omega⟩
  have e0 : s + 2 - (s + 2) = 0 := by omega
  have hok := genFromNode_ok G n (s + 2) k h64 s 0 r.1 r.2 (by omega) (by rw [e0]; simp)
    (by omega) g1 (by simpa using g2) (by simpa using g3)
  simp only [Nat.zero_mul, Nat.zero_add, Nat.one_mul, Nat.sub_self, nodeAt] at hok
  obtain ⟨es', he', hn, ht⟩ := hok
  have ee : es' = es := by
    have : genFromNode G n (s + 2) (s + 2) k 0 (maxLeafIndex (s + 2)) r.1 r.2 = .ok es' := by
      rw [hmi]; exact he'
    rw [hs] at this
    exact (Res.ok.inj this).symm
  subst ee
  obtain ⟨hok, hcon'⟩ := mkCRCPrf_ok h64 g1 hn ht
  refine ⟨es', hs, ?_, hcon'⟩
  unfold RCPrf.constrain
  rw [he, Res.bind_ok, hok]

end Verif.RCPrf.Game
