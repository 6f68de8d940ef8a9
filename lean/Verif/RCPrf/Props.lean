import Verif.RCPrf.LemmasC

/-!
# Properties C01 – C07, C10 of the range-constrained PRF

`G` is the PRG key stream (arbitrary function), `n` the output length `NBYTES`, `p` the full key, `c` a
constrained key.
-/

set_option linter.dupNamespace false

namespace Verif.RCPrf

open Verif Spec

/-- A concrete key stream used in the non-vacuity examples and counterexamples. -/
def toyG : Bytes → Nat → UInt8 := fun k i => k.headD 0 * 5 + UInt8.ofNat i + 1

/-- A concrete key of height 4 (8 leaves). -/
def toyKey : RCPrf := ⟨4, [7, 1, 2]⟩

/-- What an accepted `RCPrf::constrain` call tells about its arguments. -/
theorem constrain_accepts {G : Bytes → Nat → UInt8} {n : Nat} {p : RCPrf} {mn mx : Nat} {c : CRCPrf}
    (h64 : p.treeHeight ≤ 64) (hc : p.constrain G n mn mx = .ok c) :
    2 ≤ p.treeHeight ∧ mn ≤ mx ∧ mx < 2 ^ (p.treeHeight - 1) ∧
      ¬ (mn = 0 ∧ mx = 2 ^ (p.treeHeight - 1) - 1) ∧ IsConstrained G n p.treeHeight p.key mn mx c := by
  have hc' := hc
  unfold RCPrf.constrain RCPrf.gen at hc
  rw [Res.bind_eq_ok] at hc
  obtain ⟨es, hg, _⟩ := hc
  have hp : 0 < 2 ^ (p.treeHeight - 1) := Nat.two_pow_pos _
  have hmi : maxLeafIndex p.treeHeight = 2 ^ (p.treeHeight - 1) - 1 := by
    by_cases h0 : p.treeHeight = 0
    · simp [maxLeafIndex, h0]
    · exact maxLeafIndex_eq (by omega) h64
  rw [hmi] at hg
  split_ifs at hg with h1 h2 h3
  have hh : 2 ≤ p.treeHeight := by
    by_contra hlt
    have e : p.treeHeight - 1 = 0 := by omega
    rw [e] at h2 h3
    simp at h2 h3
    omega
  obtain ⟨c', hc1, hc2⟩ := RCPrf.constrain_ok (G := G) (n := n) (p := p) (mn := mn) (mx := mx) hh h64
    (by omega) (by omega) (by omega)
  rw [hc1] at hc'
  injection hc' with hcc
  subst hcc
  exact ⟨hh, by omega, by omega, by omega, hc2⟩

/-! ## C01 -/

/-- **C01**: on every leaf of its range, an accepted constrained key evaluates, successfully, to the value of
the full key (heights up to 63; see `c07_height64_eval_undefined` for height 64, where it is the full key's own
evaluation that fails, and `c01_constrained_eval_tree` for the value of the constrained key). -/
theorem c01_constrained_eval_eq (G : Bytes → Nat → UInt8) (n : Nat) (p : RCPrf) (mn mx : Nat) (c : CRCPrf)
    (hh : p.treeHeight ≤ 63) (hc : p.constrain G n mn mx = .ok c) (x : Nat) (h1 : mn ≤ x) (h2 : x ≤ mx) :
    ∃ v, c.eval G n x = .ok v ∧ p.eval G n x = .ok v ∧ v.length = n := by
  obtain ⟨hh2, hle, hmx, _, hcon⟩ := constrain_accepts (by omega) hc
  refine ⟨value G n p.treeHeight p.key x, CRCPrf.eval_ok (by omega) hcon h1 h2,
    RCPrf.eval_ok hh2 hh (by omega), ?_⟩
  have : ∀ l k y, 1 ≤ l → (treeLeaf G n l k y).length = n := by
    intro l
    induction l with
    | zero => intro _ _ h; omega
    | succ l ih =>
      intro k y _
      cases l with
      | zero => simp [treeLeaf, window]
      | succ l => rw [treeLeaf]; split <;> exact ih _ _ (by omega)
  exact this _ _ _ (by omega)

example : ∃ c, toyKey.constrain toyG 2 1 6 = .ok c ∧ toyKey.treeHeight ≤ 63 ∧ c.elems.length = 4 ∧
    c.eval toyG 2 5 = toyKey.eval toyG 2 5 := by
  refine ⟨_, rfl, ?_, ?_, ?_⟩ <;> decide +kernel

/-- **C01** for every height up to 64: the value returned by the constrained key is the value of the leaf in the
tree of keys. -/
theorem c01_constrained_eval_tree (G : Bytes → Nat → UInt8) (n : Nat) (p : RCPrf) (mn mx : Nat) (c : CRCPrf)
    (hh : p.treeHeight ≤ 64) (hc : p.constrain G n mn mx = .ok c) (x : Nat) (h1 : mn ≤ x) (h2 : x ≤ mx) :
    c.eval G n x = .ok (value G n p.treeHeight p.key x) := by
  obtain ⟨_, _, _, _, hcon⟩ := constrain_accepts hh hc
  exact CRCPrf.eval_ok hh hcon h1 h2

/-- Every non-empty range inside the tree, other than the complete one, is accepted (so the hypotheses of C01 are
met by all these ranges). -/
theorem c01_constrain_accepted (G : Bytes → Nat → UInt8) (n : Nat) (p : RCPrf) (mn mx : Nat)
    (hh2 : 2 ≤ p.treeHeight) (hh : p.treeHeight ≤ 64) (h1 : mn ≤ mx) (h2 : mx < 2 ^ (p.treeHeight - 1))
    (h3 : ¬ (mn = 0 ∧ mx = 2 ^ (p.treeHeight - 1) - 1)) :
    ∃ c, p.constrain G n mn mx = .ok c := by
  obtain ⟨c, hc, _⟩ := RCPrf.constrain_ok (G := G) (n := n) hh2 hh h1 h2 h3
  exact ⟨c, hc⟩

example : (2 : Nat) ≤ toyKey.treeHeight ∧ (6 : Nat) < 2 ^ (toyKey.treeHeight - 1) := by decide

/-! ## C02 -/

/-- **C02**, single evaluation: outside its range the constrained key throws. -/
theorem c02_eval_outside_throws (G : Bytes → Nat → UInt8) (n : Nat) (p : RCPrf) (mn mx : Nat) (c : CRCPrf)
    (hh : p.treeHeight ≤ 64) (hc : p.constrain G n mn mx = .ok c) (x : Nat) (hx : x < mn ∨ mx < x) :
    c.eval G n x = .exc .outOfRange := by
  obtain ⟨_, _, _, _, hcon⟩ := constrain_accepts hh hc
  exact CRCPrf.eval_out hcon hx

/-- **C02**, range evaluation: a range that is not inside the constrained range throws before any callback. -/
theorem c02_range_outside_throws (G : Bytes → Nat → UInt8) (n : Nat) (p : RCPrf) (mn mx : Nat) (c : CRCPrf)
    (hh : p.treeHeight ≤ 64) (hc : p.constrain G n mn mx = .ok c) (a b : Nat)
    (hx : b < a ∨ a < mn ∨ mx < b) :
    (c.evalRange G n a b).calls = [] ∧
      (c.evalRange G n a b).out = .exc (if b < a then .invalidArgument else .outOfRange) := by
  obtain ⟨_, _, _, _, hcon⟩ := constrain_accepts hh hc
  unfold CRCPrf.evalRange
  rw [hcon.minLeaf, hcon.maxLeaf]
  split_ifs <;> first | omega | simp

example : ∃ c, toyKey.constrain toyG 2 1 6 = .ok c ∧ c.eval toyG 2 7 = .exc .outOfRange ∧
    (c.evalRange toyG 2 5 7).out = .exc .outOfRange := by
  refine ⟨_, rfl, ?_, ?_⟩ <;> decide +kernel

/-- Nodes `(depth, index)` that can be computed from a set of nodes by going from a node to its two children. -/
inductive Derivable (S : Nat → Nat → Prop) : Nat → Nat → Prop
  | base {d j : Nat} : S d j → Derivable S d j
  | child {d j : Nat} (b : Bool) : Derivable S d j → Derivable S (d + 1) (2 * j + b.toNat)

/-- The tree node stored in an element of a tree of height `h`. -/
def storedNode (h : Nat) (c : CRCPrf) (d j : Nat) : Prop :=
  ∃ e ∈ c.elems, d = h - e.subHeight ∧ j * 2 ^ (e.subHeight - 1) = e.min

/-- **C02**, key material: every stored element is a node of the tree (its key is the one of that node) all of
whose leaves are in the range, and a leaf can be computed by going down from the stored nodes if and only if it is
in the range. -/
theorem c02_material_inside (G : Bytes → Nat → UInt8) (n : Nat) (p : RCPrf) (mn mx : Nat) (c : CRCPrf)
    (hh : p.treeHeight ≤ 64) (hc : p.constrain G n mn mx = .ok c) :
    (∀ e ∈ c.elems, IsNode G n p.treeHeight p.key e ∧ mn ≤ e.min ∧ e.max ≤ mx) ∧
    ∀ x, Derivable (storedNode p.treeHeight c) (p.treeHeight - 1) x ↔ (mn ≤ x ∧ x ≤ mx) := by
  obtain ⟨hh2, hle, hmx, _, hcon⟩ := constrain_accepts hh hc
  have hin : ∀ e ∈ c.elems, mn ≤ e.min ∧ e.min ≤ e.max ∧ e.max ≤ mx := by
    intro e he
    have := hcon.tiles.mem he
    omega
  refine ⟨fun e he => ⟨hcon.nodes e he, (hin e he).1, (hin e he).2.2⟩, fun x => ⟨?_, ?_⟩⟩
  · -- every derivable node covers only leaves of the range
    have key : ∀ d j, Derivable (storedNode p.treeHeight c) d j → d ≤ p.treeHeight - 1 →
        mn ≤ j * 2 ^ (p.treeHeight - 1 - d) ∧ (j + 1) * 2 ^ (p.treeHeight - 1 - d) ≤ mx + 1 := by
      intro d j hd
      induction hd with
      | base hs =>
        rename_i d j
        intro hdl
        obtain ⟨e, he, hd, hj⟩ := hs
        obtain ⟨_, hs1, hs2, j', hj', hmin, hmax, _⟩ := hcon.nodes e he
        have hp : 0 < 2 ^ (e.subHeight - 1) := Nat.two_pow_pos _
        have e1 : p.treeHeight - 1 - d = e.subHeight - 1 := by omega
        have := hin e he
        rw [e1, hj]
        have hjj : j = j' := Nat.eq_of_mul_eq_mul_right hp (by omega)
        subst hjj
        omega
      | child b hd ih =>
        rename_i d j
        intro hdl
        obtain ⟨i1, i2⟩ := ih (by omega)
        have e1 : p.treeHeight - 1 - d = p.treeHeight - 1 - (d + 1) + 1 := by omega
        rw [e1, Nat.pow_succ] at i1 i2
        generalize 2 ^ (p.treeHeight - 1 - (d + 1)) = P at *
        have e2 : j * (P * 2) = 2 * j * P := by ring
        have e3 : (j + 1) * (P * 2) = 2 * j * P + P + P := by ring
        have e4 : (2 * j + 1) * P = 2 * j * P + P := by ring
        have e5 : (2 * j + 1 + 1) * P = 2 * j * P + P + P := by ring
        rw [e2] at i1
        rw [e3] at i2
        cases b with
        | false =>
          simp only [Bool.toNat_false, Nat.add_zero]
          rw [e4]; omega
        | true =>
          simp only [Bool.toNat_true]
          rw [e4, e5]; omega
    intro hd
    have := key _ _ hd (Nat.le_refl _)
    simp only [Nat.sub_self, Nat.pow_zero, Nat.mul_one] at this
    omega
  · rintro ⟨hx1, hx2⟩
    -- some element contains `x`
    have hex : ∀ (es : List Elem) (a b : Nat), Tiles es a b → a ≤ x → x < b →
        ∃ e ∈ es, e.min ≤ x ∧ x ≤ e.max := by
      intro es
      induction es with
      | nil => intro a b ht; simp only [Tiles] at ht; omega
      | cons e es ih =>
        intro a b ht ha hb
        by_cases hx : x ≤ e.max
        · exact ⟨e, by simp, by have := ht.1; omega, hx⟩
        · obtain ⟨e', he', hh'⟩ := ih _ _ ht.2.2 (by omega) hb
          exact ⟨e', by simp [he'], hh'⟩
    obtain ⟨e, he, h1, h2⟩ := hex _ _ _ hcon.tiles hx1 (by omega)
    obtain ⟨_, hs1, hs2, j, hj, hmin, hmax, _⟩ := hcon.nodes e he
    -- descend from node `j`
    have down : ∀ l d j, Derivable (storedNode p.treeHeight c) d j → ∀ y, y < 2 ^ l →
        Derivable (storedNode p.treeHeight c) (d + l) (j * 2 ^ l + y) := by
      intro l
      induction l with
      | zero =>
        intro d j hd y hy
        have : y = 0 := by simpa using hy
        simpa [this] using hd
      | succ l ih =>
        intro d j hd y hy
        have hyl := ih d j hd (y / 2) (by rw [Nat.pow_succ] at hy; omega)
        have := Derivable.child (decide (y % 2 = 1)) hyl
        have e1 : d + l + 1 = d + (l + 1) := by omega
        have e2 : 2 * (j * 2 ^ l + y / 2) + (decide (y % 2 = 1)).toNat = j * 2 ^ (l + 1) + y := by
          rw [Nat.pow_succ]
          rcases Nat.mod_two_eq_zero_or_one y with hy2 | hy2
          · simp [hy2]
            have : y = 2 * (y / 2) := by omega
            conv_rhs => rw [this]
            ring
          · simp [hy2]
            have : y = 2 * (y / 2) + 1 := by omega
            conv_rhs => rw [this]
            ring
        rwa [e1, e2] at this
    have hbase : Derivable (storedNode p.treeHeight c) (p.treeHeight - e.subHeight) j :=
      .base ⟨e, he, rfl, hmin.symm⟩
    have e1 : (j + 1) * 2 ^ (e.subHeight - 1) = j * 2 ^ (e.subHeight - 1) + 2 ^ (e.subHeight - 1) := by
      ring
    have := down (e.subHeight - 1) _ j hbase (x - e.min) (by omega)
    have e2 : p.treeHeight - e.subHeight + (e.subHeight - 1) = p.treeHeight - 1 := by omega
    have e3 : j * 2 ^ (e.subHeight - 1) + (x - e.min) = x := by omega
    rwa [e2, e3] at this

example : toyKey.treeHeight ≤ 64 ∧ ∃ c, toyKey.constrain toyG 2 1 6 = .ok c ∧ c.elems ≠ [] :=
  ⟨by decide, _, rfl, by decide +kernel⟩

/-! ## C03 -/

/-- **C03**: range evaluation of a full key (height 2 to 63) succeeds on every range inside the tree, calls the
callback on `min, min+1, …, max` in this order, each time with the value `eval` returns. -/
theorem c03_range_in_order (G : Bytes → Nat → UInt8) (n : Nat) (p : RCPrf) (mn mx : Nat)
    (hh2 : 2 ≤ p.treeHeight) (hh : p.treeHeight ≤ 63) (h1 : mn ≤ mx) (h2 : mx < 2 ^ (p.treeHeight - 1)) :
    (p.evalRange G n mn mx).out = .ok () ∧
    (p.evalRange G n mn mx).calls.map Prod.fst = List.range' mn (mx - mn + 1) ∧
    ∀ c ∈ (p.evalRange G n mn mx).calls, p.eval G n c.1 = .ok c.2 := by
  rw [RCPrf.evalRange_ok hh2 hh h1 h2]
  refine ⟨rfl, ?_, ?_⟩
  · simp [Run.done, specCalls, Function.comp_def]
  · intro c hc
    simp only [Run.done, specCalls, List.mem_map, List.mem_range'_1] at hc
    obtain ⟨x, hx, rfl⟩ := hc
    exact RCPrf.eval_ok hh2 hh (by simp only; omega)

example : 2 ≤ toyKey.treeHeight ∧ toyKey.treeHeight ≤ 63 ∧ (6 : Nat) < 2 ^ (toyKey.treeHeight - 1) ∧
    (toyKey.evalRange toyG 2 3 5).calls.map Prod.fst = [3, 4, 5] := by decide +kernel

/-! ## C04 -/

/-- **C04**: range evaluation of a constrained key. -/
theorem c04_constrained_range (G : Bytes → Nat → UInt8) (n : Nat) (p : RCPrf) (mn mx : Nat) (c : CRCPrf)
    (hh : p.treeHeight ≤ 63) (hc : p.constrain G n mn mx = .ok c) (a b : Nat)
    (h1 : mn ≤ a) (h2 : a ≤ b) (h3 : b ≤ mx) :
    (c.evalRange G n a b).out = .ok () ∧
    (c.evalRange G n a b).calls.map Prod.fst = List.range' a (b - a + 1) ∧
    ∀ r ∈ (c.evalRange G n a b).calls, p.eval G n r.1 = .ok r.2 := by
  obtain ⟨hh2, hle, hmx, _, hcon⟩ := constrain_accepts (by omega) hc
  rw [CRCPrf.evalRange_ok (by omega) hcon h1 h2 h3]
  refine ⟨rfl, ?_, ?_⟩
  · simp [Run.done, specCalls, Function.comp_def]
  · intro r hr
    simp only [Run.done, specCalls, List.mem_map, List.mem_range'_1] at hr
    obtain ⟨x, hx, rfl⟩ := hr
    exact RCPrf.eval_ok hh2 hh (by simp only; omega)

example : ∃ c, toyKey.constrain toyG 2 1 6 = .ok c ∧
    (c.evalRange toyG 2 2 5).calls = (toyKey.evalRange toyG 2 2 5).calls := by
  refine ⟨_, rfl, ?_⟩; decide +kernel

/-! ## C05 -/

/-- A sequence of `constrain` calls on a constrained key. -/
def constrainChain (G : Bytes → Nat → UInt8) (n : Nat) : CRCPrf → List (Nat × Nat) → Res CRCPrf
  | c, [] => .ok c
  | c, (a, b) :: rs => c.constrain G n a b >>= fun c' => constrainChain G n c' rs

/-- A decreasing chain of non-empty ranges inside `[a,b]`, with final range `r`. -/
def Nested : Nat × Nat → List (Nat × Nat) → Nat × Nat → Prop
  | r, [], r' => r = r'
  | (a, b), (a', b') :: rs, r' => a ≤ a' ∧ a' ≤ b' ∧ b' ≤ b ∧ Nested (a', b') rs r'

/-- **C05**: any chain of re-constraining calls along a decreasing chain of ranges succeeds; the final object accepts
exactly the leaves of the final range and evaluates there as the full key does. -/
theorem c05_reconstrain (G : Bytes → Nat → UInt8) (n : Nat) (p : RCPrf) (mn mx : Nat) (c : CRCPrf)
    (hh : p.treeHeight ≤ 63) (hc : p.constrain G n mn mx = .ok c) (rs : List (Nat × Nat)) (a b : Nat)
    (hn : Nested (mn, mx) rs (a, b)) :
    ∃ c', constrainChain G n c rs = .ok c' ∧
      (∀ x, a ≤ x → x ≤ b → ∃ v, c'.eval G n x = .ok v ∧ p.eval G n x = .ok v) ∧
      (∀ x, x < a ∨ b < x → c'.eval G n x = .exc .outOfRange) := by
  obtain ⟨hh2, hle, hmx, _, hcon⟩ := constrain_accepts (by omega) hc
  have key : ∀ (rs : List (Nat × Nat)) (mn mx : Nat) (c : CRCPrf),
      mx < 2 ^ (p.treeHeight - 1) → IsConstrained G n p.treeHeight p.key mn mx c → Nested (mn, mx) rs (a, b) →
      ∃ c', constrainChain G n c rs = .ok c' ∧ IsConstrained G n p.treeHeight p.key a b c' ∧
        b < 2 ^ (p.treeHeight - 1) := by
    intro rs
    induction rs with
    | nil =>
      intro mn mx c hm hcon hn
      simp only [Nested, Prod.mk.injEq] at hn
      obtain ⟨rfl, rfl⟩ := hn
      exact ⟨c, rfl, hcon, hm⟩
    | cons r rs ih =>
      intro mn mx c hm hcon hn
      obtain ⟨a', b'⟩ := r
      obtain ⟨n1, n2, n3, n4⟩ := hn
      obtain ⟨c1, hc1, hcon1⟩ := CRCPrf.constrain_ok (by omega) hcon n1 n2 n3
      obtain ⟨c2, hc2, hcon2, hb⟩ := ih a' b' c1 (by omega) hcon1 n4
      exact ⟨c2, by simp only [constrainChain, hc1, Res.bind_ok, hc2], hcon2, hb⟩
  obtain ⟨c', hc', hcon', hb⟩ := key rs mn mx c hmx hcon hn
  refine ⟨c', hc', ?_, fun x hx => CRCPrf.eval_out hcon' hx⟩
  intro x h1 h2
  exact ⟨_, CRCPrf.eval_ok (by omega) hcon' h1 h2, RCPrf.eval_ok hh2 hh (by omega)⟩

example : ∃ c, toyKey.constrain toyG 2 1 6 = .ok c ∧ Nested (1, 6) [(1, 5), (2, 4)] (2, 4) ∧
    ∃ c', constrainChain toyG 2 c [(1, 5), (2, 4)] = .ok c' ∧ c'.elems.length = 2 := by
  refine ⟨_, rfl, by simp [Nested], _, rfl, ?_⟩; decide +kernel

/-! ## C06 -/

/-- **C06**: the elements produced for a range are, in increasing order, disjoint consecutive nodes of the tree that
cover exactly the range, and there are at most `max 1 (2(h-2))` of them. -/
theorem c06_cover (G : Bytes → Nat → UInt8) (n : Nat) (p : RCPrf) (mn mx : Nat) (c : CRCPrf)
    (hh : p.treeHeight ≤ 64) (hc : p.constrain G n mn mx = .ok c) :
    Tiles c.elems mn (mx + 1) ∧ (∀ e ∈ c.elems, IsNode G n p.treeHeight p.key e) ∧
      c.elems.length ≤ Nat.max 1 (2 * (p.treeHeight - 2)) := by
  obtain ⟨hh2, hle, hmx, hnf, hcon⟩ := constrain_accepts hh hc
  refine ⟨hcon.tiles, hcon.nodes, ?_⟩
  -- recover the raw list
  unfold RCPrf.constrain at hc
  rw [Res.bind_eq_ok] at hc
  obtain ⟨es, hg, hmk⟩ := hc
  have hmi := maxLeafIndex_eq (h := p.treeHeight) (by omega) hh
  have hlen : c.elems.length = es.length := by
    have hins : ∀ e l, (insertElem e l).length = l.length + 1 := by
      intro e l
      induction l with
      | nil => rfl
      | cons a l ih => rw [insertElem]; split <;> simp [ih]
    have hsort : ∀ l, (sortElems l).length = l.length := by
      intro l
      induction l with
      | nil => rfl
      | cons a l ih => rw [sortElems, hins, ih, List.length_cons]
    unfold mkCRCPrf at hmk
    rw [Res.bind_eq_ok] at hmk
    obtain ⟨h', _, hmk⟩ := hmk
    simp only at hmk
    split at hmk
    · injection hmk with hmk
      rw [← hmk]; exact hsort es
    · cases hmk
  unfold RCPrf.gen at hg
  rw [hmi, if_neg (by omega), if_neg (by omega), if_neg (by omega)] at hg
  obtain ⟨s, hs⟩ : ∃ s, p.treeHeight = s + 2 := ⟨p.treeHeight - 2, by omega⟩
  have h63 := two_pow_le_63 hh
  have e1 : s + 1 = p.treeHeight - 1 := by omega
  have hsz := genFromNode_size G n p.treeHeight s p.key 0 mn mx es (by rw [e1]; omega) (by omega) hle
    (by rw [e1]; omega) (by rw [e1]; omega) (by rw [e1, ← hs]; simpa using hg)
  rw [hlen]
  refine Nat.le_trans hsz ?_
  unfold sizeBound
  by_cases h3 : p.treeHeight = 2
  · have : s = 0 := by omega
    subst this
    simp only [Nat.zero_add, Nat.pow_one] at *
    rw [h3] at hmx hnf
    simp only [Nat.reduceSub, Nat.pow_one] at hmx hnf
    have : mn = 0 ∨ mx = 1 := by omega
    rw [if_pos (by simpa using this)]
    exact Nat.le_max_left _ _
  · refine Nat.le_trans ?_ (Nat.le_max_right _ _)
    split <;> omega

example : ∃ c, toyKey.constrain toyG 2 1 6 = .ok c ∧
    c.elems.map (fun e => (e.subHeight, e.min, e.max)) = [(1, 1, 1), (2, 2, 3), (2, 4, 5), (1, 6, 6)] := by
  refine ⟨_, rfl, ?_⟩; decide +kernel

/-! ## C07 -/

/-- **C07** (largest true part): for heights 2 to 63, leaves of the tree evaluate to their own value and indices
of at least `2^height` are rejected.  Missing for the full property: indices between `2^(height-1)` and `2^height - 1`
are accepted (`c07_alias`), and heights 1 and 64 are undefined (`c07_height1_eval_undefined`,
`c07_height64_eval_undefined`). -/
theorem c07_eval_range_check_partial (G : Bytes → Nat → UInt8) (n : Nat) (p : RCPrf)
    (hh2 : 2 ≤ p.treeHeight) (hh : p.treeHeight ≤ 63) (x : Nat) :
    (x < 2 ^ (p.treeHeight - 1) → p.eval G n x = .ok (value G n p.treeHeight p.key x)) ∧
    (2 ^ p.treeHeight ≤ x → p.eval G n x = .exc .outOfRange) ∧
    (∀ a, 2 ^ p.treeHeight ≤ x → p.evalRange G n a x = ⟨[], .exc .outOfRange⟩) := by
  have hs : 2 ^ p.treeHeight ≤ x → x >>> p.treeHeight ≠ 0 := by
    intro hx
    rw [Nat.shiftRight_eq_div_pow]
    have := Nat.div_pos hx (Nat.two_pow_pos _)
    omega
  refine ⟨fun hx => RCPrf.eval_ok hh2 hh hx, fun hx => ?_, fun a hx => ?_⟩
  · unfold RCPrf.eval
    rw [if_neg (by omega), if_pos (hs hx)]
  · unfold RCPrf.evalRange
    rw [if_neg (by omega), if_pos (hs hx)]

example : (2 : Nat) ≤ toyKey.treeHeight ∧ toyKey.treeHeight ≤ 63 := by decide

/-- **C07 is false for the code**: in every tree of height 2 to 63 and for every leaf `x`, the index
`x + 2^(height-1)`, which is not a leaf of the tree, is accepted and returns the value of leaf `x`. -/
theorem c07_alias (G : Bytes → Nat → UInt8) (n : Nat) (p : RCPrf)
    (hh2 : 2 ≤ p.treeHeight) (hh : p.treeHeight ≤ 63) (x : Nat) (hx : x < 2 ^ (p.treeHeight - 1)) :
    ∃ v, p.eval G n (x + 2 ^ (p.treeHeight - 1)) = .ok v ∧ p.eval G n x = .ok v := by
  obtain ⟨m, hm⟩ : ∃ m, p.treeHeight = m + 1 := ⟨p.treeHeight - 1, by omega⟩
  have e : 2 ^ p.treeHeight = 2 ^ (p.treeHeight - 1) + 2 ^ (p.treeHeight - 1) := by
    rw [hm, Nat.add_sub_cancel, Nat.pow_succ]; ring
  refine ⟨_, RCPrf.eval_mod hh2 hh (by omega), ?_⟩
  rw [RCPrf.eval_ok hh2 hh hx, Nat.add_mod_right, Nat.mod_eq_of_lt hx]

example : (3 : Nat) < 2 ^ (toyKey.treeHeight - 1) ∧
    toyKey.eval toyG 2 (3 + 8) = toyKey.eval toyG 2 3 := by decide +kernel

/-- The negation of C07 as a closed statement: a height-2 key (leaves 0 and 1) evaluates index 3. -/
theorem c07_false : ¬ ∀ (G : Bytes → Nat → UInt8) (n : Nat) (p : RCPrf) (x : Nat),
    1 ≤ p.treeHeight → p.treeHeight ≤ 64 → x > maxLeafIndex p.treeHeight →
    p.eval G n x = .exc .outOfRange := by
  intro h
  have := h (fun _ _ => 0) 1 ⟨2, []⟩ 3 (by decide) (by decide) (by decide)
  exact absurd this (by decide +kernel)

/-- For height 64 every evaluation shifts a 64-bit integer by 64 (undefined behaviour). -/
theorem c07_height64_eval_undefined (G : Bytes → Nat → UInt8) (n : Nat) (p : RCPrf)
    (hh : p.treeHeight = 64) (x a b : Nat) :
    p.eval G n x = .ub ∧ p.evalRange G n a b = ⟨[], .ub⟩ := by
  unfold RCPrf.eval RCPrf.evalRange
  rw [if_pos (by omega), if_pos (by omega)]
  exact ⟨rfl, rfl⟩

/-- The constructor accepts heights 1 and 64. -/
theorem c07_constructor_accepts (k : Bytes) : mkRCPrf k 1 = .ok ⟨1, k⟩ ∧ mkRCPrf k 64 = .ok ⟨64, k⟩ := by
  constructor <;> rfl

/-- For height 1 the only leaf cannot be evaluated: an assertion fails. -/
theorem c07_height1_eval_undefined (G : Bytes → Nat → UInt8) (n : Nat) (k : Bytes) :
    (⟨1, k⟩ : RCPrf).eval G n 0 = .ub := by
  simp [RCPrf.eval, deriveLeaf]

/-- Ranges: with height 2, `eval_range(0,3)` fails an assertion and `eval_range(2,3)` calls back on indices that are
not leaves. -/
theorem c07_range_false (G : Bytes → Nat → UInt8) (n : Nat) (k : Bytes) :
    (⟨2, k⟩ : RCPrf).evalRange G n 0 3 = ⟨[], .ub⟩ ∧
    (⟨2, k⟩ : RCPrf).evalRange G n 2 3 =
      ⟨[(2, leafValue G n k false), (3, leafValue G n k true)], .ok ()⟩ := by
  constructor
  · rfl
  · simp [RCPrf.evalRange, deriveLeafRange, deriveRangeAux, deriveBottom, getChild, Run.done]

/-! ## C10 -/

/-- **C10** for full keys of every accepted height: inverted ranges throw `invalid_argument`, ranges reaching outside the
tree (and the complete range) throw `out_of_range`, all others are accepted; undefined behaviour is never reached. -/
theorem c10_full_key_range_checks (G : Bytes → Nat → UInt8) (n : Nat) (p : RCPrf)
    (hh1 : 1 ≤ p.treeHeight) (hh : p.treeHeight ≤ 64) (mn mx : Nat) :
    (mx < mn → p.constrain G n mn mx = .exc .invalidArgument) ∧
    (mn ≤ mx → 2 ^ (p.treeHeight - 1) ≤ mx → p.constrain G n mn mx = .exc .outOfRange) ∧
    (mn = 0 → mx + 1 = 2 ^ (p.treeHeight - 1) → p.constrain G n mn mx = .exc .outOfRange) ∧
    (mn ≤ mx → mx < 2 ^ (p.treeHeight - 1) → ¬ (mn = 0 ∧ mx + 1 = 2 ^ (p.treeHeight - 1)) →
      ∃ c, p.constrain G n mn mx = .ok c) := by
  have hmi := maxLeafIndex_eq hh1 hh
  have hp : 0 < 2 ^ (p.treeHeight - 1) := Nat.two_pow_pos _
  refine ⟨fun h => ?_, fun h1 h2 => ?_, fun h1 h2 => ?_, fun h1 h2 h3 => ?_⟩
  · unfold RCPrf.constrain RCPrf.gen
    rw [if_pos h]; rfl
  · unfold RCPrf.constrain RCPrf.gen
    rw [hmi, if_neg (by omega), if_pos (by omega)]; rfl
  · unfold RCPrf.constrain RCPrf.gen
    rw [hmi, if_neg (by omega), if_neg (by omega), if_pos (by omega)]; rfl
  · have : 2 ≤ p.treeHeight := by
      by_contra hlt
      have e : p.treeHeight - 1 = 0 := by omega
      rw [e] at h2 h3
      simp at h2 h3
      omega
    exact c01_constrain_accepted G n p mn mx this hh h1 h2 (by omega)

example : toyKey.constrain toyG 2 6 1 = .exc .invalidArgument ∧
    toyKey.constrain toyG 2 1 8 = .exc .outOfRange ∧ toyKey.constrain toyG 2 0 7 = .exc .outOfRange := by
  decide +kernel

/-- **C10** for constrained keys, largest true part: bounds outside the key's range throw `out_of_range` and
non-inverted ranges inside it are accepted.  Missing: inverted ranges are not rejected (`c10_inverted_false`). -/
theorem c10_constrained_key_partial (G : Bytes → Nat → UInt8) (n : Nat) (p : RCPrf) (mn mx : Nat) (c : CRCPrf)
    (hh : p.treeHeight ≤ 64) (hc : p.constrain G n mn mx = .ok c) (a b : Nat) :
    (a < mn ∨ mx < b → c.constrain G n a b = .exc .outOfRange) ∧
    (mn ≤ a → a ≤ b → b ≤ mx → ∃ c', c.constrain G n a b = .ok c') := by
  obtain ⟨_, _, _, _, hcon⟩ := constrain_accepts hh hc
  refine ⟨fun h => ?_, fun h1 h2 h3 => ?_⟩
  · unfold CRCPrf.constrain CRCPrf.gen
    rw [hcon.minLeaf, hcon.maxLeaf, if_pos (by omega)]; rfl
  · obtain ⟨c', hc', _⟩ := CRCPrf.constrain_ok hh hcon h1 h2 h3
    exact ⟨c', hc'⟩

example : ∃ c, toyKey.constrain toyG 2 1 6 = .ok c ∧ c.constrain toyG 2 0 3 = .exc .outOfRange := by
  refine ⟨_, rfl, ?_⟩; decide +kernel

/-- **C10 is false for constrained keys**: for some keys an inverted range hits a failing assertion, for others it
returns an (empty) constrained key. -/
theorem c10_inverted_false :
    (∃ c, toyKey.constrain toyG 2 0 3 = .ok c ∧ c.constrain toyG 2 1 0 = .ub) ∧
    (∃ c, toyKey.constrain toyG 2 1 2 = .ok c ∧ c.constrain toyG 2 2 1 = .ok ⟨0, []⟩) := by
  refine ⟨⟨_, rfl, ?_⟩, ⟨_, rfl, ?_⟩⟩ <;> decide +kernel

end Verif.RCPrf
