import Verif.RCPrf.LemmasGen

set_option linter.dupNamespace false

namespace Verif.RCPrf

open Verif Spec

variable {G : Bytes → Nat → UInt8} {n h : Nat} {k : Bytes}

theorem Spec.IsNode.bounds {e : Elem} (he : IsNode G n h k e) :
    e.min ≤ e.max ∧ e.max < 2 ^ (h - 1) ∧ e.max + 1 = e.min + 2 ^ (e.subHeight - 1) := by
  obtain ⟨_, h1, h2, j, hj, hmin, hmax, _⟩ := he
  have hp : 0 < 2 ^ (e.subHeight - 1) := Nat.two_pow_pos _
  have hsp := two_pow_split (h := h) (sh := e.subHeight) h1 (by omega)
  have hb1 : (j + 1) * 2 ^ (e.subHeight - 1) ≤ 2 ^ (h - e.subHeight) * 2 ^ (e.subHeight - 1) :=
    Nat.mul_le_mul_right _ hj
  have e1 : (j + 1) * 2 ^ (e.subHeight - 1) = j * 2 ^ (e.subHeight - 1) + 2 ^ (e.subHeight - 1) := by
    ring
  omega

theorem two_pow_le_63 (h64 : h ≤ 64) : 2 ^ (h - 1) ≤ 9223372036854775808 :=
  Nat.le_trans (Nat.pow_le_pow_right (by omega) (show h - 1 ≤ 63 by omega)) (by norm_num)

/-! ### Tilings -/

theorem Spec.Tiles.le {es : List Elem} {a b : Nat} (ht : Tiles es a b) : a ≤ b := by
  induction es generalizing a with
  | nil => exact Nat.le_of_eq ht
  | cons e es ih =>
    have := ih ht.2.2
    have h1 := ht.1
    have h2 := ht.2.1
    omega

theorem Spec.Tiles.mem {es : List Elem} {a b : Nat} (ht : Tiles es a b) {e : Elem} (he : e ∈ es) :
    a ≤ e.min ∧ e.min ≤ e.max ∧ e.max < b := by
  induction es generalizing a with
  | nil => simp at he
  | cons e' es ih =>
    obtain ⟨h1, h2, h3⟩ := ht
    have hle := h3.le
    rcases List.mem_cons.mp he with rfl | he
    · omega
    · have := ih h3 he
      omega

theorem Spec.Tiles.sort {es : List Elem} {a b : Nat} (ht : Tiles es a b) : sortElems es = es := by
  induction es generalizing a with
  | nil => rfl
  | cons e es ih =>
    obtain ⟨h1, h2, h3⟩ := ht
    rw [sortElems, ih h3]
    cases es with
    | nil => rfl
    | cons e' es =>
      have := h3.1
      rw [insertElem, if_pos (by omega)]

theorem Spec.Tiles.consecutive {es : List Elem} {a b : Nat} (ht : Tiles es a b)
    (hb : b ≤ 9223372036854775808) : Verif.RCPrf.consecutive es = true := by
  induction es generalizing a with
  | nil => rfl
  | cons e es ih =>
    obtain ⟨h1, h2, h3⟩ := ht
    have ihe := ih h3
    cases es with
    | nil => rfl
    | cons e' es =>
      have h4 := h3.1
      have h5 := (h3.2.2).le
      have h6 := h3.2.1
      have hm : (e.max + 1) % W64 = e'.min := by
        rw [Nat.mod_eq_of_lt (by omega)]; omega
      rw [Verif.RCPrf.consecutive, ihe, hm]
      simp

theorem getElementHeight_ok {es : List Elem} (hne : es ≠ []) (hh : ∀ e ∈ es, e.treeHeight = h) :
    getElementHeight es = .ok h := by
  cases es with
  | nil => exact absurd rfl hne
  | cons e es =>
    have he := hh e (by simp)
    have hall : es.all (fun e' => e'.treeHeight == e.treeHeight) = true := by
      rw [List.all_eq_true]
      intro e' he'
      rw [beq_iff_eq, he, hh e' (by simp [he'])]
    rw [getElementHeight, if_pos hall, he]

theorem mkCRCPrf_ok {es : List Elem} {a b : Nat} (h64 : h ≤ 64) (hab : a ≤ b)
    (hn : ∀ e ∈ es, IsNode G n h k e) (ht : Tiles es a (b + 1)) :
    mkCRCPrf es = .ok ⟨h, es⟩ ∧ IsConstrained G n h k a b ⟨h, es⟩ := by
  have hne : es ≠ [] := by
    intro h0; subst h0; simp only [Tiles] at ht; omega
  have hb : b + 1 ≤ 9223372036854775808 := by
    obtain ⟨e, he⟩ := List.exists_mem_of_ne_nil es hne
    -- the last element ends at `b`
    have : ∀ (es : List Elem) (a : Nat), es ≠ [] → (∀ e ∈ es, IsNode G n h k e) →
        Tiles es a (b + 1) → b + 1 ≤ 9223372036854775808 := by
      intro es
      induction es with
      | nil => intro a h0; exact absurd rfl h0
      | cons e es ih =>
        intro a _ hn ht
        cases es with
        | nil =>
          have h1 := (hn e (by simp)).bounds
          have h2 := two_pow_le_63 h64
          have h3 := ht.2.2
          simp only [Tiles] at h3
          omega
        | cons e' es => exact ih _ (by simp) (fun x hx => hn x (by simp [hx])) ht.2.2
    exact this es a hne hn ht
  refine ⟨?_, ⟨rfl, hab, hn, ht⟩⟩
  unfold mkCRCPrf
  rw [getElementHeight_ok hne (fun e he => (hn e he).1)]
  simp only [Res.bind_ok, ht.sort, ht.consecutive hb, if_true, Res.pure_eq]

/-! ### Single evaluation -/

/-- Leaf `x` below node `e`, seen from the key stored in `e`. -/
theorem value_below {e : Elem} {key : Bytes} (he : IsNode G n h k e) (hk : e.node = .inner key) {x : Nat}
    (h1 : e.min ≤ x) (h2 : x ≤ e.max) :
    2 ≤ e.subHeight ∧ treeLeaf G n (e.subHeight - 1) key (x - e.min) = value G n h k x ∧
      x % 2 ^ (e.subHeight - 1) = x - e.min := by
  obtain ⟨_, hs1, hs2, j, hj, hmin, hmax, hnode⟩ := he
  have hs : e.subHeight ≠ 1 := by
    intro hs; rw [if_pos hs, hk] at hnode; cases hnode
  rw [if_neg hs, hk] at hnode
  injection hnode with hnode
  have hp : 0 < 2 ^ (e.subHeight - 1) := Nat.two_pow_pos _
  have e1 : (j + 1) * 2 ^ (e.subHeight - 1) = j * 2 ^ (e.subHeight - 1) + 2 ^ (e.subHeight - 1) := by
    ring
  refine ⟨by omega, ?_, ?_⟩
  · have ht := treeLeaf_nodeAt G n k (h - e.subHeight) (e.subHeight - 1) j (x - e.min) (by omega) hj
      (by omega)
    rw [hnode, ht, value]
    congr 1
    · omega
    · omega
  · have hx : x = (x - e.min) + 2 ^ (e.subHeight - 1) * j := by
      rw [Nat.mul_comm]; omega
    conv_lhs => rw [hx]
    rw [Nat.add_mul_mod_self_left, Nat.mod_eq_of_lt (by omega)]

theorem Elem.eval_ok {e : Elem} (h64 : h ≤ 64) (he : IsNode G n h k e) {x : Nat}
    (h1 : e.min ≤ x) (h2 : x ≤ e.max) : e.eval G n x = .ok (value G n h k x) := by
  unfold Elem.eval
  have hth := he.1
  have hs2 := he.2.2.1
  cases hk : e.node with
  | inner key =>
    obtain ⟨hs, hv, hm⟩ := value_below he hk h1 h2
    simp only
    rw [if_neg (by omega), if_neg (by omega), deriveLeaf_eq _ _ _ _ _ _ (by omega) (by omega)]
    have e1 : e.treeHeight - 1 - (e.treeHeight - e.subHeight) = e.subHeight - 1 := by omega
    rw [e1, hm, hv]
  | leaf v =>
    obtain ⟨_, hs1, _, j, hj, hmin, hmax, hnode⟩ := he
    have hs : e.subHeight = 1 := by
      by_contra hs; rw [if_neg hs, hk] at hnode; cases hnode
    rw [if_pos hs, hk] at hnode
    injection hnode with hnode
    rw [hs] at hmin hmax
    have : x = e.min := by omega
    simp only
    rw [if_neg (by simp [this]), hnode, this]

theorem evalFind_ok {es : List Elem} {a b : Nat} (h64 : h ≤ 64) (hn : ∀ e ∈ es, IsNode G n h k e)
    (ht : Tiles es a b) {x : Nat} (h1 : a ≤ x) (h2 : x < b) :
    evalFind G n x es = .ok (value G n h k x) := by
  induction es generalizing a with
  | nil => simp only [Tiles] at ht; omega
  | cons e es ih =>
    obtain ⟨t1, t2, t3⟩ := ht
    rw [evalFind]
    by_cases hc : e.min ≤ x ∧ x ≤ e.max
    · rw [if_pos hc, Elem.eval_ok h64 (hn e (by simp)) hc.1 hc.2]
    · rw [if_neg hc]
      exact ih (fun e he => hn e (by simp [he])) t3 (by omega)

theorem Spec.IsConstrained.minLeaf {c : CRCPrf} {a b : Nat} (hc : IsConstrained G n h k a b c) :
    c.minLeaf = a := by
  have ht := hc.tiles
  have := hc.le
  unfold CRCPrf.minLeaf
  cases hes : c.elems with
  | nil => rw [hes] at ht; simp only [Tiles] at ht; omega
  | cons e es => rw [hes] at ht; exact ht.1

theorem tiles_last {es : List Elem} {a b : Nat} (ht : Tiles es a b) (hne : es ≠ []) :
    ∃ e, es.getLast? = some e ∧ e.max + 1 = b := by
  induction es generalizing a with
  | nil => exact absurd rfl hne
  | cons e es ih =>
    cases es with
    | nil => exact ⟨e, rfl, ht.2.2⟩
    | cons e' es =>
      obtain ⟨x, hx, hb⟩ := ih ht.2.2 (by simp)
      exact ⟨x, by rw [List.getLast?_cons_cons, hx], hb⟩

theorem Spec.IsConstrained.maxLeaf {c : CRCPrf} {a b : Nat} (hc : IsConstrained G n h k a b c) :
    c.maxLeaf = b := by
  have ht := hc.tiles
  have hle := hc.le
  have hne : c.elems ≠ [] := by
    intro h0; rw [h0] at ht; simp only [Tiles] at ht; omega
  obtain ⟨e, he, hb⟩ := tiles_last ht hne
  unfold CRCPrf.maxLeaf
  rw [he]
  simp only
  omega

theorem CRCPrf.eval_ok {c : CRCPrf} {a b : Nat} (h64 : h ≤ 64) (hc : IsConstrained G n h k a b c)
    {x : Nat} (h1 : a ≤ x) (h2 : x ≤ b) : c.eval G n x = .ok (value G n h k x) := by
  unfold CRCPrf.eval
  rw [hc.minLeaf, hc.maxLeaf, if_neg (by omega)]
  exact evalFind_ok h64 hc.nodes hc.tiles h1 (by omega)

theorem CRCPrf.eval_out {c : CRCPrf} {a b : Nat} (hc : IsConstrained G n h k a b c)
    {x : Nat} (hx : x < a ∨ b < x) : c.eval G n x = .exc .outOfRange := by
  unfold CRCPrf.eval
  rw [hc.minLeaf, hc.maxLeaf, if_pos (by omega)]

/-! ### Range evaluation -/

/-- Calls expected for the leaves `a, …, a+c-1`. -/
def specCalls (G : Bytes → Nat → UInt8) (n h : Nat) (k : Bytes) (a c : Nat) : List (Nat × Bytes) :=
  (List.range' a c).map fun x => (x, value G n h k x)

theorem specCalls_append (a c d : Nat) :
    specCalls G n h k a (c + d) = specCalls G n h k a c ++ specCalls G n h k (a + c) d := by
  unfold specCalls
  rw [← List.map_append, List.range'_append_1]

theorem Elem.evalRange_ok {e : Elem} (h64 : h ≤ 64) (he : IsNode G n h k e) {mn mx : Nat}
    (h1 : e.min ≤ mn) (h2 : mn ≤ mx) (h3 : mx ≤ e.max) :
    e.evalRange G n mn mx = Run.done (specCalls G n h k mn (mx - mn + 1)) := by
  unfold Elem.evalRange
  have hth := he.1
  have hs2 := he.2.2.1
  have hbd := he.bounds
  have h63 := two_pow_le_63 h64
  cases hk : e.node with
  | inner key =>
    obtain ⟨hs, _, _⟩ := value_below he hk h1 (by omega)
    simp only
    rw [if_neg (by omega), if_neg (by omega)]
    unfold deriveLeafRange
    rw [if_neg (by omega), if_neg (by omega)]
    have e1 : e.treeHeight - (e.treeHeight - e.subHeight) - 2 = e.subHeight - 2 := by omega
    have e2 : e.subHeight - 2 + 1 = e.subHeight - 1 := by omega
    rw [e1, deriveRangeAux_eq _ _ _ _ _ _ _ _ (by omega) (by omega) (by omega) (by rw [e2]; omega)
      (by omega), e2]
    congr 1
    have e3 : mx - e.min - (mn - e.min) + 1 = mx - mn + 1 := by omega
    rw [e3]
    apply List.ext_getElem
    · simp [callsOf, specCalls]
    · intro i i1 i2
      simp only [callsOf, specCalls, List.getElem_map, List.getElem_range', List.length_map,
        List.length_range'] at i1 i2 ⊢
      have e4 : mn - e.min + 1 * i = mn + 1 * i - e.min := by omega
      obtain ⟨_, hv, _⟩ := value_below he hk (x := mn + 1 * i) (by omega) (by omega)
      rw [e4, hv]
      congr 1
      omega
  | leaf v =>
    have hev := Elem.eval_ok h64 he (x := e.min) (Nat.le_refl _) hbd.1
    obtain ⟨_, hs1, _, j, hj, hmin, hmax, hnode⟩ := he
    have hs : e.subHeight = 1 := by
      by_contra hs; rw [if_neg hs, hk] at hnode; cases hnode
    rw [hs] at hmin hmax
    have e1 : mn = e.min := by omega
    have e2 : mx = mn := by omega
    subst e2
    unfold Elem.eval at hev
    rw [hk] at hev
    simp only [ne_eq, not_true_eq_false, if_false] at hev
    injection hev with hev
    simp only
    rw [if_neg (by simp), if_neg (by simp [e1])]
    simp [specCalls, hev, e1]

theorem evalRangeLoop_ok {es : List Elem} {a b : Nat} (h64 : h ≤ 64)
    (hn : ∀ e ∈ es, IsNode G n h k e) (ht : Tiles es a (b + 1)) {mn mx : Nat}
    (h2 : mn ≤ mx) (h3 : mx ≤ b) :
    evalRangeLoop G n mn mx es =
      Run.done (specCalls G n h k (Nat.max mn a) (mx + 1 - Nat.max mn a)) := by
  induction es generalizing a with
  | nil =>
    simp only [Tiles] at ht
    have : mx + 1 - Nat.max mn a = 0 := by
      have : a ≤ Nat.max mn a := Nat.le_max_right mn a
      omega
    rw [this]
    rfl
  | cons e es ih =>
    obtain ⟨t1, t2, t3⟩ := ht
    have hle := t3.le
    rw [evalRangeLoop]
    by_cases c1 : mx < e.min
    · rw [if_pos c1]
      have : mx + 1 - Nat.max mn a = 0 := by
        have : a ≤ Nat.max mn a := Nat.le_max_right mn a
        omega
      rw [this]
      rfl
    · rw [if_neg c1]
      have ih' := ih (fun e he => hn e (by simp [he])) t3
      by_cases c2 : rangesIntersect mn mx e.min e.max = true
      · rw [if_pos c2]
        simp only [rangesIntersect, Bool.and_eq_true, decide_eq_true_eq] at c2
        have m1 : Nat.max mn e.min = Nat.max mn a := by rw [t1]
        rw [m1, Elem.evalRange_ok (mn := Nat.max mn a) (mx := Nat.min mx e.max) h64 (hn e (by simp)) (by rw [t1]; exact Nat.le_max_right _ _)
          (by apply Nat.max_le.mpr; constructor <;> apply Nat.le_min.mpr <;> omega)
          (Nat.min_le_right _ _), ih', Run.seq_done]
        congr 1
        have m2 : Nat.max mn (e.max + 1) = e.max + 1 := Nat.max_eq_right (by omega)
        rw [m2]
        have hmxa : Nat.max mn a ≤ e.max := by apply Nat.max_le.mpr; omega
        by_cases c3 : mx ≤ e.max
        · have m3 : Nat.min mx e.max = mx := Nat.min_eq_left c3
          have m4 : mx + 1 - (e.max + 1) = 0 := by omega
          have hmxa2 : Nat.max mn a ≤ mx := by apply Nat.max_le.mpr; omega
          rw [m3, m4]
          have m5 : mx - Nat.max mn a + 1 = mx + 1 - Nat.max mn a := by omega
          rw [m5]
          simp [specCalls]
        · have m3 : Nat.min mx e.max = e.max := Nat.min_eq_right (by omega)
          rw [m3]
          have m4 : mx + 1 - Nat.max mn a = (e.max - Nat.max mn a + 1) + (mx + 1 - (e.max + 1)) := by
            omega
          have m5 : Nat.max mn a + (e.max - Nat.max mn a + 1) = e.max + 1 := by omega
          rw [m4, specCalls_append (c := e.max - Nat.max mn a + 1), m5]
      · rw [if_neg c2, ih']
        simp only [rangesIntersect, Bool.and_eq_true, decide_eq_true_eq] at c2
        have m1 : Nat.max mn (e.max + 1) = mn := Nat.max_eq_left (by omega)
        have m2 : Nat.max mn a = mn := Nat.max_eq_left (by omega)
        rw [m1, m2]

theorem CRCPrf.evalRange_ok {c : CRCPrf} {a b : Nat} (h64 : h ≤ 64) (hc : IsConstrained G n h k a b c)
    {mn mx : Nat} (h1 : a ≤ mn) (h2 : mn ≤ mx) (h3 : mx ≤ b) :
    c.evalRange G n mn mx = Run.done (specCalls G n h k mn (mx - mn + 1)) := by
  unfold CRCPrf.evalRange
  rw [if_neg (by omega), hc.minLeaf, hc.maxLeaf, if_neg (by omega),
    evalRangeLoop_ok h64 hc.nodes hc.tiles h2 h3]
  have m2 : Nat.max mn a = mn := Nat.max_eq_left (by omega)
  rw [m2, show mx + 1 - mn = mx - mn + 1 by omega]

/-! ### Constraining again -/

theorem Elem.gen_ok {e : Elem} (h64 : h ≤ 64) (he : IsNode G n h k e) {mn mx : Nat}
    (h1 : e.min ≤ mn) (h2 : mn ≤ mx) (h3 : mx ≤ e.max) :
    ∃ es, e.gen G n mn mx = .ok es ∧ (∀ e ∈ es, IsNode G n h k e) ∧ Tiles es mn (mx + 1) := by
  have hbd := he.bounds
  have he' := he
  obtain ⟨hth, hs1, hs2, j, hj, hmin, hmax, hnode⟩ := he
  unfold Elem.gen
  cases hk : e.node with
  | inner key =>
    have hs : e.subHeight ≠ 1 := by
      intro hs; rw [if_pos hs, hk] at hnode; cases hnode
    rw [if_neg hs, hk] at hnode
    injection hnode with hnode
    simp only
    rw [if_neg (by omega)]
    have hmax' : e.max = (j + 1) * 2 ^ (e.subHeight - 1) - 1 := by omega
    by_cases hfull : mn = e.min ∧ mx = e.max
    · rw [if_pos hfull, hnode, hth, hmin, hmax', mkInner_node G k (by omega) hs2 h64]
      refine ⟨[nodeElem G h k e.subHeight j], by simp, ?_, ?_⟩
      · intro e' he'; rw [List.mem_singleton] at he'; subst he'
        exact isNode_nodeElem G n k (by omega) hs2 hj
      · simp only [Tiles, nodeElem]
        have := hfull.1
        have := hfull.2
        omega
    · rw [if_neg hfull]
      obtain ⟨s, hs⟩ : ∃ s, e.subHeight = s + 2 := ⟨e.subHeight - 2, by omega⟩
      rw [hs] at hmin hmax hmax' hj hnode hs2
      rw [hth, hnode, hs]
      simp only [show s + 2 - 1 = s + 1 by omega] at hmin hmax hmax'
      rw [hmin, hmax']
      exact genFromNode_ok G n h k h64 s j mn mx (by omega) hj (by omega) h2 (by omega)
        (by rw [← hmin, ← hmax']; exact hfull)
  | leaf v =>
    have hs : e.subHeight = 1 := by
      by_contra hs; rw [if_neg hs, hk] at hnode; cases hnode
    rw [hs] at hmin hmax
    have e1 : mn = e.min := by omega
    have e2 : mx = e.min := by omega
    simp only
    rw [if_neg (by omega)]
    unfold mkLeaf mkElem
    rw [if_neg (by omega), if_neg (by omega), if_neg (by omega), maxLeafIndex_eq (by omega) (by omega),
      if_neg (by simp)]
    simp only [Res.bind_ok, Res.pure_eq]
    refine ⟨_, rfl, ?_, ?_⟩
    · intro e' hmem
      rw [List.mem_singleton] at hmem
      have : e' = e := by
        have e3 : e.max = e.min := by omega
        clear hnode he' hbd hmin hmax
        cases e
        simp_all
      rw [this]; exact he'
    · simp only [Tiles]; omega

theorem genLoop_ok {es : List Elem} {a b : Nat} (h64 : h ≤ 64)
    (hn : ∀ e ∈ es, IsNode G n h k e) (ht : Tiles es a (b + 1)) {mn mx : Nat}
    (h2 : mn ≤ mx) (h3 : mx ≤ b) :
    ∃ r, genLoop G n mn mx es = .ok r ∧ (∀ e ∈ r, IsNode G n h k e) ∧
      Tiles r (Nat.max mn (Nat.min a (mx + 1))) (mx + 1) := by
  induction es generalizing a with
  | nil =>
    simp only [Tiles] at ht
    have : Nat.max mn (Nat.min a (mx + 1)) = mx + 1 := by
      have : Nat.min a (mx + 1) = mx + 1 := Nat.min_eq_right (by omega)
      rw [this]; exact Nat.max_eq_right (by omega)
    rw [this]
    exact ⟨[], rfl, by simp, rfl⟩
  | cons e es ih =>
    obtain ⟨t1, t2, t3⟩ := ht
    have hle := t3.le
    obtain ⟨r, hr, hrn, hrt⟩ := ih (fun e he => hn e (by simp [he])) t3
    rw [genLoop]
    by_cases c2 : rangesIntersect e.min e.max mn mx = true
    · rw [if_pos c2]
      simp only [rangesIntersect, Bool.and_eq_true, decide_eq_true_eq] at c2
      obtain ⟨l, hl, hln, hlt⟩ := Elem.gen_ok (n := n) h64 (hn e (by simp))
        (mn := Nat.max mn e.min) (mx := Nat.min mx e.max) (Nat.le_max_right _ _)
        (by apply Nat.max_le.mpr; constructor <;> apply Nat.le_min.mpr <;> omega)
        (Nat.min_le_right _ _)
      rw [hl, hr]
      refine ⟨l ++ r, rfl, ?_, ?_⟩
      · intro e he
        rcases List.mem_append.mp he with he | he
        · exact hln e he
        · exact hrn e he
      · have m1 : Nat.min a (mx + 1) = a := Nat.min_eq_left (by omega)
        rw [m1]
        rw [t1] at hlt
        refine tiles_append hlt ?_
        have : Nat.max mn (Nat.min (e.max + 1) (mx + 1)) = Nat.min mx e.max + 1 := by
          by_cases c3 : mx ≤ e.max
          · have m3 : Nat.min mx e.max = mx := Nat.min_eq_left c3
            have m4 : Nat.min (e.max + 1) (mx + 1) = mx + 1 := Nat.min_eq_right (by omega)
            rw [m3, m4]; exact Nat.max_eq_right (by omega)
          · have m3 : Nat.min mx e.max = e.max := Nat.min_eq_right (by omega)
            have m4 : Nat.min (e.max + 1) (mx + 1) = e.max + 1 := Nat.min_eq_left (by omega)
            rw [m3, m4]; exact Nat.max_eq_right (by omega)
        rw [← this]; exact hrt
    · rw [if_neg c2]
      simp only [rangesIntersect, Bool.and_eq_true, decide_eq_true_eq] at c2
      refine ⟨r, hr, hrn, ?_⟩
      have : Nat.max mn (Nat.min a (mx + 1)) = Nat.max mn (Nat.min (e.max + 1) (mx + 1)) := by
        by_cases c3 : mx < e.min
        · have m3 : Nat.min a (mx + 1) = mx + 1 := Nat.min_eq_right (by omega)
          have m4 : Nat.min (e.max + 1) (mx + 1) = mx + 1 := Nat.min_eq_right (by omega)
          rw [m3, m4]
        · have m3 : Nat.min a (mx + 1) = a := Nat.min_eq_left (by omega)
          have m4 : Nat.min (e.max + 1) (mx + 1) = e.max + 1 := Nat.min_eq_left (by omega)
          rw [m3, m4]
          have m5 : Nat.max mn a = mn := Nat.max_eq_left (by omega)
          have m6 : Nat.max mn (e.max + 1) = mn := Nat.max_eq_left (by omega)
          rw [m5, m6]
      rw [this]; exact hrt

theorem CRCPrf.constrain_ok {c : CRCPrf} {a b : Nat} (h64 : h ≤ 64)
    (hc : IsConstrained G n h k a b c) {mn mx : Nat} (h1 : a ≤ mn) (h2 : mn ≤ mx) (h3 : mx ≤ b) :
    ∃ c', c.constrain G n mn mx = .ok c' ∧ IsConstrained G n h k mn mx c' := by
  obtain ⟨r, hr, hrn, hrt⟩ := genLoop_ok h64 hc.nodes hc.tiles h2 h3
  have m1 : Nat.max mn (Nat.min a (mx + 1)) = mn := by
    apply Nat.max_eq_left
    exact Nat.le_trans (Nat.min_le_left _ _) h1
  rw [m1] at hrt
  obtain ⟨hok, hcon⟩ := mkCRCPrf_ok h64 h2 hrn hrt
  refine ⟨⟨h, r⟩, ?_, hcon⟩
  unfold CRCPrf.constrain CRCPrf.gen
  rw [hc.minLeaf, hc.maxLeaf, if_neg (by omega), hr, Res.bind_ok, hok]

/-! ### Full keys -/

theorem RCPrf.constrain_ok {p : RCPrf} (h2 : 2 ≤ p.treeHeight) (h64 : p.treeHeight ≤ 64) {mn mx : Nat}
    (h3 : mn ≤ mx) (h4 : mx < 2 ^ (p.treeHeight - 1))
    (h5 : ¬ (mn = 0 ∧ mx = 2 ^ (p.treeHeight - 1) - 1)) :
    ∃ c, p.constrain G n mn mx = .ok c ∧ IsConstrained G n p.treeHeight p.key mn mx c := by
  obtain ⟨s, hs⟩ : ∃ s, p.treeHeight = s + 2 := ⟨p.treeHeight - 2, by omega⟩
  have hmi := maxLeafIndex_eq (h := p.treeHeight) (by omega) h64
  have hp : 0 < 2 ^ (p.treeHeight - 1) := Nat.two_pow_pos _
  have e0 : s + 2 - (s + 2) = 0 := by omega
  have hg := genFromNode_ok G n p.treeHeight p.key h64 s 0 mn mx (by omega) (by rw [hs, e0]; simp)
    (by omega) h3 (by rw [hs] at h4; simpa using h4) (by rw [hs] at h5; simpa using h5)
  rw [← hs] at hg
  simp only [Nat.zero_mul, Nat.zero_add, Nat.one_mul, Nat.sub_self, nodeAt,
    show s + 1 = p.treeHeight - 1 by omega] at hg
  obtain ⟨es, he, hn, ht⟩ := hg
  obtain ⟨hok, hcon⟩ := mkCRCPrf_ok h64 h3 hn ht
  refine ⟨⟨p.treeHeight, es⟩, ?_, hcon⟩
  unfold RCPrf.constrain RCPrf.gen
  rw [hmi, if_neg (by omega), if_neg (by omega), if_neg (by omega), he, Res.bind_ok, hok]

theorem RCPrf.eval_mod {p : RCPrf} (h2 : 2 ≤ p.treeHeight) (h64 : p.treeHeight ≤ 63) {x : Nat}
    (hx : x < 2 ^ p.treeHeight) :
    p.eval G n x = .ok (value G n p.treeHeight p.key (x % 2 ^ (p.treeHeight - 1))) := by
  unfold RCPrf.eval
  have hz : x >>> p.treeHeight = 0 := by
    rw [Nat.shiftRight_eq_div_pow, Nat.div_eq_of_lt hx]
  rw [if_neg (by omega), if_neg (by simp [hz]), deriveLeaf_eq _ _ _ _ _ _ (by omega) (by omega)]
  rfl

theorem RCPrf.eval_ok {p : RCPrf} (h2 : 2 ≤ p.treeHeight) (h64 : p.treeHeight ≤ 63) {x : Nat}
    (hx : x < 2 ^ (p.treeHeight - 1)) :
    p.eval G n x = .ok (value G n p.treeHeight p.key x) := by
  have : 2 ^ (p.treeHeight - 1) ≤ 2 ^ p.treeHeight := Nat.pow_le_pow_right (by omega) (by omega)
  rw [RCPrf.eval_mod h2 h64 (by omega), Nat.mod_eq_of_lt hx]

theorem RCPrf.evalRange_ok {p : RCPrf} (h2 : 2 ≤ p.treeHeight) (h64 : p.treeHeight ≤ 63) {mn mx : Nat}
    (h3 : mn ≤ mx) (h4 : mx < 2 ^ (p.treeHeight - 1)) :
    p.evalRange G n mn mx = Run.done (specCalls G n p.treeHeight p.key mn (mx - mn + 1)) := by
  have h63 := two_pow_le_63 (h := p.treeHeight) (by omega)
  have : 2 ^ (p.treeHeight - 1) ≤ 2 ^ p.treeHeight := Nat.pow_le_pow_right (by omega) (by omega)
  unfold RCPrf.evalRange
  have hz : mx >>> p.treeHeight = 0 := by
    rw [Nat.shiftRight_eq_div_pow, Nat.div_eq_of_lt (by omega)]
  rw [if_neg (by omega), if_neg (by simp [hz]), if_neg (by omega)]
  unfold deriveLeafRange
  have e2 : p.treeHeight - 0 - 2 + 1 = p.treeHeight - 1 := by omega
  rw [if_neg (by omega), if_neg (by omega), deriveRangeAux_eq _ _ _ _ _ _ _ _ (by omega) (by omega) h3
    (by rw [e2]; exact h4) (by omega), e2]
  simp [callsOf, specCalls, value]

end Verif.RCPrf
