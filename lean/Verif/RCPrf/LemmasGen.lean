import Verif.RCPrf.Lemmas

namespace Verif.RCPrf

open Verif Spec

theorem maxLeafIndex_eq {h : Nat} (h1 : 1 ≤ h) (h2 : h ≤ 64) : maxLeafIndex h = 2 ^ (h - 1) - 1 := by
  unfold maxLeafIndex
  rw [if_neg (by omega), if_neg (by omega)]

/-- The inner element of node `j` at subtree height `sh`. -/
def nodeElem (G : Bytes → Nat → UInt8) (h : Nat) (k : Bytes) (sh j : Nat) : Elem :=
  ⟨h, sh, j * 2 ^ (sh - 1), (j + 1) * 2 ^ (sh - 1) - 1, .inner (nodeAt G k (h - sh) j)⟩

theorem mkInner_node (G : Bytes → Nat → UInt8) {h sh j : Nat} (k : Bytes) (h1 : 2 ≤ sh) (h2 : sh < h)
    (h3 : h ≤ 64) :
    mkInner (nodeAt G k (h - sh) j) h sh (j * 2 ^ (sh - 1)) ((j + 1) * 2 ^ (sh - 1) - 1) =
      .ok (nodeElem G h k sh j) := by
  have hp : 0 < 2 ^ (sh - 1) := Nat.two_pow_pos _
  have e : (j + 1) * 2 ^ (sh - 1) = j * 2 ^ (sh - 1) + 2 ^ (sh - 1) := by ring
  unfold mkInner mkElem
  rw [if_neg (by omega), if_neg (by omega), if_neg (by omega), maxLeafIndex_eq (by omega) (by omega),
    if_neg (by omega)]
  simp only [Res.bind_ok, Res.pure_eq]
  rw [if_neg (by omega)]
  rfl

theorem isNode_nodeElem (G : Bytes → Nat → UInt8) (n : Nat) {h sh j : Nat} (k : Bytes) (h1 : 2 ≤ sh)
    (h2 : sh < h) (hj : j < 2 ^ (h - sh)) : IsNode G n h k (nodeElem G h k sh j) := by
  have hp : 0 < 2 ^ (sh - 1) := Nat.two_pow_pos _
  have e : (j + 1) * 2 ^ (sh - 1) = j * 2 ^ (sh - 1) + 2 ^ (sh - 1) := by ring
  refine ⟨rfl, by simp only [nodeElem]; omega, h2, j, hj, rfl, by simp only [nodeElem]; omega, ?_⟩
  have : ¬ sh = 1 := by omega
  simp [nodeElem, this]

theorem tiles_append {l r : List Elem} {a b c : Nat} (hl : Tiles l a b) (hr : Tiles r b c) :
    Tiles (l ++ r) a c := by
  induction l generalizing a with
  | nil => simp only [Tiles] at hl; subst hl; exact hr
  | cons e es ih => exact ⟨hl.1, hl.2.1, ih hl.2.2⟩

theorem two_pow_split {h sh : Nat} (h1 : 1 ≤ sh) (h2 : sh ≤ h) :
    2 ^ (h - sh) * 2 ^ (sh - 1) = 2 ^ (h - 1) := by
  rw [← Nat.pow_add]; congr 1; omega

theorem genFromNode_ok (G : Bytes → Nat → UInt8) (n h : Nat) (k : Bytes) (h64 : h ≤ 64) (s : Nat) :
    ∀ (j min max : Nat), s + 2 ≤ h → j < 2 ^ (h - (s + 2)) →
      j * 2 ^ (s + 1) ≤ min → min ≤ max → max < (j + 1) * 2 ^ (s + 1) →
      ¬ (min = j * 2 ^ (s + 1) ∧ max = (j + 1) * 2 ^ (s + 1) - 1) →
      ∃ es, genFromNode G n h (s + 2) (nodeAt G k (h - (s + 2)) j) (j * 2 ^ (s + 1))
          ((j + 1) * 2 ^ (s + 1) - 1) min max = .ok es ∧
        (∀ e ∈ es, IsNode G n h k e) ∧ Tiles es min (max + 1) := by
  induction s with
  | zero =>
    intro j min max hh hj h1 h2 h3 h4
    simp only [Nat.zero_add, Nat.pow_one] at h1 h3 h4 hh hj ⊢
    have hmm : min = max := by omega
    subst hmm
    have hp := two_pow_split (h := h) (sh := 2) (by omega) hh
    simp only [Nat.reduceSub, Nat.pow_one] at hp
    refine ⟨[⟨h, 1, min, min, .leaf (value G n h k min)⟩], ?_, ?_, ?_⟩
    · unfold genFromNode
      rw [if_neg (by simp)]
      unfold genLeaf mkLeaf mkElem
      dsimp only
      rw [if_neg (by omega), if_neg (by omega), if_neg (by omega), maxLeafIndex_eq (by omega) (by omega),
        if_neg (by simp)]
      simp only [Res.bind_ok, Res.pure_eq]
      have hv : leafValue G n (nodeAt G k (h - 2) j) (if min = j * 2 then false else true)
          = value G n h k min := by
        have ht := treeLeaf_nodeAt G n k (h - 2) 1 j (min - j * 2) (by omega) hj (by omega)
        have e1 : 1 + (h - 2) = h - 1 := by omega
        have e2 : j * 2 ^ 1 + (min - j * 2) = min := by omega
        rw [e1, e2] at ht
        rw [value, ← ht, treeLeaf, leafValue]
        by_cases hc : min = j * 2
        · simp [hc]
        · have : min - j * 2 = 1 := by omega
          simp [hc, this]
      rw [hv]
    · intro e he
      rw [List.mem_singleton] at he
      subst he
      refine ⟨rfl, by simp, by simp; omega, min, ?_, by simp, by simp, by simp⟩
      simp only
      omega
    · simp [Tiles]
  | succ s ih =>
    intro j min max hh hj h1 h2 h3 h4
    -- arithmetic of the two halves
    have hP : 0 < 2 ^ (s + 1) := Nat.two_pow_pos _
    have hps : 2 ^ (s + 1 + 1) = 2 ^ (s + 1) * 2 := Nat.pow_succ 2 (s + 1)
    have eL0 : j * 2 ^ (s + 1 + 1) = (2 * j) * 2 ^ (s + 1) := by rw [hps]; ring
    have eL1 : (2 * j + 1) * 2 ^ (s + 1) = (2 * j) * 2 ^ (s + 1) + 2 ^ (s + 1) := by ring
    have eR1 : (j + 1) * 2 ^ (s + 1 + 1) = (2 * j + 1 + 1) * 2 ^ (s + 1) := by rw [hps]; ring
    have eR2 : (2 * j + 1 + 1) * 2 ^ (s + 1) = (2 * j + 1) * 2 ^ (s + 1) + 2 ^ (s + 1) := by
      ring
    have hdp : 2 ^ (h - (s + 2)) = 2 ^ (h - (s + 1 + 2)) * 2 := by
      rw [show h - (s + 2) = h - (s + 1 + 2) + 1 by omega, Nat.pow_succ]
    have hjL : 2 * j < 2 ^ (h - (s + 2)) := by omega
    have hjR : 2 * j + 1 < 2 ^ (h - (s + 2)) := by omega
    have hkL : childKey G (nodeAt G k (h - (s + 1 + 2)) j) false = nodeAt G k (h - (s + 2)) (2 * j) := by
      rw [show h - (s + 2) = h - (s + 1 + 2) + 1 by omega, nodeAt]
      simp [childKey]
    have hkR : childKey G (nodeAt G k (h - (s + 1 + 2)) j) true =
        nodeAt G k (h - (s + 2)) (2 * j + 1) := by
      rw [show h - (s + 2) = h - (s + 1 + 2) + 1 by omega, nodeAt]
      have e1 : (2 * j + 1) / 2 = j := by omega
      have e2 : (2 * j + 1) % 2 = 1 := by omega
      simp [childKey, e1, e2]
    have hbound : (2 * j + 1 + 1) * 2 ^ (s + 1) ≤ 9223372036854775808 := by
      have hsp := two_pow_split (h := h) (sh := s + 1 + 2) (by omega) hh
      simp only [show s + 1 + 2 - 1 = s + 1 + 1 by omega] at hsp
      have hb1 : (j + 1) * 2 ^ (s + 1 + 1) ≤ 2 ^ (h - (s + 1 + 2)) * 2 ^ (s + 1 + 1) :=
        Nat.mul_le_mul_right _ hj
      have hb2 : 2 ^ (h - 1) ≤ 2 ^ 63 := Nat.pow_le_pow_right (by omega) (by omega)
      omega
    have hinL := mkInner_node G (h := h) (sh := s + 2) (j := 2 * j) k (by omega) (by omega) h64
    have hinR := mkInner_node G (h := h) (sh := s + 2) (j := 2 * j + 1) k (by omega) (by omega) h64
    have hisL := isNode_nodeElem G n (h := h) (sh := s + 2) (j := 2 * j) k (by omega) (by omega) hjL
    have hisR := isNode_nodeElem G n (h := h) (sh := s + 2) (j := 2 * j + 1) k (by omega) (by omega) hjR
    have ihL := fun mn mx => ih (2 * j) mn mx (by omega) hjL
    have ihR := fun mn mx => ih (2 * j + 1) mn mx (by omega) hjR
    clear ih hj hdp hjL hjR hps
    simp only [show s + 2 - 1 = s + 1 by omega] at hinL hinR
    have htL : Tiles [nodeElem G h k (s + 2) (2 * j)] (2 * j * 2 ^ (s + 1))
        ((2 * j + 1) * 2 ^ (s + 1)) := by
      simp only [Tiles, nodeElem, show s + 2 - 1 = s + 1 by omega]
      rw [eL1]
      generalize 2 * j * 2 ^ (s + 1) = A at *
      generalize 2 ^ (s + 1) = P at *
      exact ⟨trivial, by omega, by omega⟩
    have htR : Tiles [nodeElem G h k (s + 2) (2 * j + 1)] ((2 * j + 1) * 2 ^ (s + 1))
        ((2 * j + 1 + 1) * 2 ^ (s + 1)) := by
      simp only [Tiles, nodeElem, show s + 2 - 1 = s + 1 by omega]
      rw [eR2]
      generalize (2 * j + 1) * 2 ^ (s + 1) = A at *
      generalize 2 ^ (s + 1) = P at *
      exact ⟨trivial, by omega, by omega⟩
    rw [eR1] at h3 h4 ⊢
    rw [eL0] at h1 h4 ⊢
    unfold genFromNode
    simp only [hkL, hkR]
    clear hkL hkR eR1 eL0
    generalize nodeElem G h k (s + 2) (2 * j) = eltL at *
    generalize nodeElem G h k (s + 2) (2 * j + 1) = eltR at *
    generalize nodeAt G k (h - (s + 2)) (2 * j) = kL at *
    generalize nodeAt G k (h - (s + 2)) (2 * j + 1) = kR at *
    generalize 2 * j * 2 ^ (s + 1) = A at *
    generalize (2 * j + 1 + 1) * 2 ^ (s + 1) = B at *
    generalize (2 * j + 1) * 2 ^ (s + 1) = M at *
    generalize 2 ^ (s + 1) = P at *
    have hmid : (B - 1 + A) % W64 / 2 = M - 1 := by
      rw [Nat.mod_eq_of_lt (by omega)]
      omega
    have hmid1 : (M - 1 + 1) % W64 = M := by
      rw [Nat.mod_eq_of_lt (by omega)]
      omega
    simp only [hmid, hmid1]
    -- left part
    have HL : ∃ l, (if min ≤ M - 1 then
          if min = A ∧ max ≥ M - 1 then (fun e => [e]) <$> mkInner kL h (s + 2) A (M - 1)
          else genFromNode G n h (s + 2) kL A (M - 1) min (Nat.min max (M - 1))
        else pure []) = .ok l ∧ (∀ e ∈ l, IsNode G n h k e) ∧
        Tiles l min (Nat.max min (Nat.min (max + 1) M)) := by
      by_cases hl : min ≤ M - 1
      · have hmx : Nat.max min (Nat.min (max + 1) M) = Nat.min (max + 1) M := by
          apply Nat.max_eq_right; apply Nat.le_min.mpr; omega
        rw [if_pos hl, hmx]
        by_cases hfull : min = A ∧ max ≥ M - 1
        · have hmn : Nat.min (max + 1) M = M := Nat.min_eq_right (by omega)
          rw [if_pos hfull, hinL, hmn]
          refine ⟨[eltL], by simp, ?_, ?_⟩
          · intro e he; rw [List.mem_singleton] at he; subst he; exact hisL
          · rw [hfull.1]; exact htL
        · rw [if_neg hfull]
          by_cases hm : max ≤ M - 1
          · have hmn : Nat.min max (M - 1) = max := Nat.min_eq_left hm
            have hmn2 : Nat.min (max + 1) M = max + 1 := Nat.min_eq_left (by omega)
            rw [hmn, hmn2]
            exact ihL min max h1 h2 (by omega) (by omega)
          · have hmn : Nat.min max (M - 1) = M - 1 := Nat.min_eq_right (by omega)
            have hmn2 : Nat.min (max + 1) M = M := Nat.min_eq_right (by omega)
            rw [hmn, hmn2]
            have := ihL min (M - 1) h1 (by omega) (by omega) (by omega)
            rwa [show M - 1 + 1 = M by omega] at this
      · have hmx : Nat.max min (Nat.min (max + 1) M) = min := by
          apply Nat.max_eq_left
          exact Nat.le_trans (Nat.min_le_right _ _) (by omega)
        rw [if_neg hl, hmx]
        exact ⟨[], rfl, by simp, rfl⟩
    -- right part
    have HR : ∃ r, (if max > M - 1 then
          if min ≤ M ∧ max = B - 1 then (fun e => [e]) <$> mkInner kR h (s + 2) M (B - 1)
          else genFromNode G n h (s + 2) kR M (B - 1) (Nat.max min M) max
        else pure []) = .ok r ∧ (∀ e ∈ r, IsNode G n h k e) ∧
        Tiles r (Nat.max min (Nat.min (max + 1) M)) (max + 1) := by
      by_cases hr : max > M - 1
      · have hmn : Nat.min (max + 1) M = M := Nat.min_eq_right (by omega)
        rw [if_pos hr, hmn]
        by_cases hfull : min ≤ M ∧ max = B - 1
        · have hmx : Nat.max min M = M := Nat.max_eq_right hfull.1
          rw [if_pos hfull, hinR, hmx]
          refine ⟨[eltR], by simp, ?_, ?_⟩
          · intro e he; rw [List.mem_singleton] at he; subst he; exact hisR
          · rw [show max + 1 = B by omega]; exact htR
        · rw [if_neg hfull]
          by_cases hm : min ≤ M
          · have hmx : Nat.max min M = M := Nat.max_eq_right hm
            rw [hmx]
            exact ihR M max (by omega) (by omega) (by omega) (by omega)
          · have hmx : Nat.max min M = min := Nat.max_eq_left (by omega)
            rw [hmx]
            exact ihR min max (by omega) (by omega) (by omega) (by omega)
      · have hmx : Nat.max min (Nat.min (max + 1) M) = max + 1 := by
          have : Nat.min (max + 1) M = max + 1 := Nat.min_eq_left (by omega)
          rw [this]; exact Nat.max_eq_right (by omega)
        rw [if_neg hr, hmx]
        exact ⟨[], rfl, by simp, rfl⟩
    obtain ⟨l, l1, l2, l3⟩ := HL
    obtain ⟨r, r1, r2, r3⟩ := HR
    refine ⟨l ++ r, ?_, ?_, tiles_append l3 r3⟩
    · rw [l1, Res.bind_ok, r1, Res.bind_ok, Res.pure_eq]
    · intro e he
      rcases List.mem_append.mp he with he | he
      · exact l2 e he
      · exact r2 e he

/-- The bound on the number of elements produced in a subtree of height `sh`. -/
def sizeBound (sh smin smax min max : Nat) : Nat :=
  if min = smin ∨ max = smax then sh - 1 else 2 * (sh - 2)

theorem mkInner_single {k : Bytes} {th sh a b : Nat} {l : List Elem}
    (h : ((fun e => [e]) <$> mkInner k th sh a b) = .ok l) : l.length = 1 := by
  cases hm : mkInner k th sh a b <;> rw [hm] at h <;> simp at h
  simp [← h]

theorem genFromNode_size (G : Bytes → Nat → UInt8) (n h : Nat) (s : Nat) :
    ∀ (k : Bytes) (A min max : Nat) (es : List Elem), A + 2 ^ (s + 1) ≤ 9223372036854775808 →
      A ≤ min → min ≤ max → max < A + 2 ^ (s + 1) →
      ¬ (min = A ∧ max = A + 2 ^ (s + 1) - 1) →
      genFromNode G n h (s + 2) k A (A + 2 ^ (s + 1) - 1) min max = .ok es →
      es.length ≤ sizeBound (s + 2) A (A + 2 ^ (s + 1) - 1) min max := by
  induction s with
  | zero =>
    intro k A min max es _ h1 h2 h3 h4 hg
    simp only [Nat.zero_add, Nat.pow_one] at h3 h4 hg ⊢
    unfold genFromNode at hg
    have hmm : min = max := by omega
    subst hmm
    rw [if_neg (by simp)] at hg
    unfold genLeaf at hg
    simp only [Res.bind_eq_ok, Res.pure_eq] at hg
    obtain ⟨e, _, hg⟩ := hg
    injection hg with hg
    have : min = A ∨ min = A + 2 - 1 := by omega
    simp only [← hg, sizeBound, if_pos this]; simp
  | succ s ih =>
    intro k A min max es hb h1 h2 h3 h4 hg
    have hP : 0 < 2 ^ (s + 1) := Nat.two_pow_pos _
    have hps : 2 ^ (s + 1 + 1) = 2 ^ (s + 1) * 2 := Nat.pow_succ 2 (s + 1)
    unfold genFromNode at hg
    simp only [Res.bind_eq_ok, Res.pure_eq] at hg
    rw [hps] at hb h3 h4 hg ⊢
    clear hps
    generalize 2 ^ (s + 1) = P at *
    have hmid : (A + P * 2 - 1 + A) % W64 / 2 = A + P - 1 := by
      rw [Nat.mod_eq_of_lt (by omega)]
      omega
    have hmid1 : (A + P - 1 + 1) % W64 = A + P := by
      rw [Nat.mod_eq_of_lt (by omega)]
      omega
    rw [hmid, hmid1] at hg
    obtain ⟨l, hl, r, hr, hlr⟩ := hg
    injection hlr with hlr
    subst hlr
    rw [List.length_append]
    -- bound on the left half
    have HL : l.length ≤ if min ≤ A + P - 1 then
        (if min = A ∧ max ≥ A + P - 1 then 1
         else if min = A ∨ max ≥ A + P - 1 then s + 1 else 2 * s) else 0 := by
      by_cases c1 : min ≤ A + P - 1
      · rw [if_pos c1] at hl ⊢
        by_cases c2 : min = A ∧ max ≥ A + P - 1
        · rw [if_pos c2] at hl ⊢
          rw [mkInner_single hl]
        · rw [if_neg c2] at hl ⊢
          by_cases c3 : max ≤ A + P - 1
          · rw [show Nat.min max (A + P - 1) = max from Nat.min_eq_left c3] at hl
            have := ih _ A min max l (by omega) h1 h2 (by omega) (by omega) hl
            unfold sizeBound at this
            split_ifs at this ⊢ <;> omega
          · rw [show Nat.min max (A + P - 1) = A + P - 1 from Nat.min_eq_right (by omega)] at hl
            have := ih _ A min (A + P - 1) l (by omega) h1 (by omega) (by omega) (by omega) hl
            unfold sizeBound at this
            split_ifs at this ⊢ <;> omega
      · rw [if_neg c1] at hl ⊢
        injection hl with hl
        simp [← hl]
    have HR : r.length ≤ if max > A + P - 1 then
        (if min ≤ A + P ∧ max = A + P * 2 - 1 then 1
         else if min ≤ A + P ∨ max = A + P * 2 - 1 then s + 1 else 2 * s) else 0 := by
      have eB : A + P * 2 - 1 = A + P + P - 1 := by omega
      rw [eB] at hr ⊢
      by_cases c1 : max > A + P - 1
      · rw [if_pos c1] at hr ⊢
        by_cases c2 : min ≤ A + P ∧ max = A + P + P - 1
        · rw [if_pos c2] at hr ⊢
          rw [mkInner_single hr]
        · rw [if_neg c2] at hr ⊢
          by_cases c3 : min ≤ A + P
          · rw [show Nat.max min (A + P) = A + P from Nat.max_eq_right c3] at hr
            have := ih _ (A + P) (A + P) max r (by omega) (by omega) (by omega) (by omega) (by omega) hr
            unfold sizeBound at this
            split_ifs at this ⊢ <;> omega
          · rw [show Nat.max min (A + P) = min from Nat.max_eq_left (by omega)] at hr
            have := ih _ (A + P) min max r (by omega) (by omega) (by omega) (by omega) (by omega) hr
            unfold sizeBound at this
            split_ifs at this ⊢ <;> omega
      · rw [if_neg c1] at hr ⊢
        injection hr with hr
        simp [← hr]
    unfold sizeBound
    split_ifs at HL HR ⊢ <;> omega

end Verif.RCPrf
