import Verif.RCPrf.PropsS

/-!
# Elements of a constrained key, and the empty constrained key

The classes `ConstrainedRCPrfInnerElement` and `ConstrainedRCPrfLeafElement` are public: they are constructed by callers that
reassemble a constrained key, and offer the same operations as the whole key.
-/

namespace Verif.RCPrf

open Verif Spec

/-- `e` was accepted by one of the two constructors of elements. -/
def Accepted (e : Elem) : Prop :=
  (∃ key th sh a b, mkInner key th sh a b = .ok e) ∨ (∃ v th x, mkLeaf v th x = .ok e)

theorem accepted_leaf {e : Elem} (h : Accepted e) {v : Bytes} (hv : e.node = .leaf v) : e.max = e.min := by
  rcases h with ⟨key, th, sh, a, b, h⟩ | ⟨v', th, x, h⟩
  · unfold mkInner mkElem at h
    exfalso
    split at h <;> try cases h
    split at h <;> try cases h
    split at h <;> try cases h
    split at h <;> try cases h
    simp only [Res.bind_ok] at h
    split at h <;> cases h
    cases hv
  · unfold mkLeaf mkElem at h
    split at h <;> try cases h
    split at h <;> try cases h
    split at h <;> try cases h
    split at h <;> cases h
    rfl

/-- **C75**: an element that is a node of the tree returns the value of the tree on each of its leaves. -/
theorem c75_inside (G : Bytes → Nat → UInt8) (n h : Nat) (k : Bytes) (h64 : h ≤ 64) (e : Elem) (he : IsNode G n h k e)
    (x : Nat) (h1 : e.min ≤ x) (h2 : x ≤ e.max) : e.eval G n x = .ok (value G n h k x) :=
  Elem.eval_ok h64 he h1 h2

/-- **C75**: every element that can be constructed refuses a leaf outside its interval, aligned with the tree or not. -/
theorem c75_outside (G : Bytes → Nat → UInt8) (n : Nat) (e : Elem) (he : Accepted e) (x : Nat) (hx : x < e.min ∨ e.max < x) :
    e.eval G n x = .exc .outOfRange := by
  unfold Elem.eval
  cases hn : e.node with
  | inner key =>
    by_cases h : x < e.min
    · simp [h]
    · simp only [if_neg h, if_pos (show x > e.max by omega)]
  | leaf v =>
    have := accepted_leaf he hn
    simp only [if_pos (show x ≠ e.min by omega)]

/-- **C75**: range evaluation of an element that is a node calls back on exactly the leaves of the range, in order, with the values of the
tree. -/
theorem c75_range_inside (G : Bytes → Nat → UInt8) (n h : Nat) (k : Bytes) (h64 : h ≤ 64) (e : Elem) (he : IsNode G n h k e)
    (a b : Nat) (h1 : e.min ≤ a) (h2 : a ≤ b) (h3 : b ≤ e.max) :
    (e.evalRange G n a b).out = .ok () ∧
    (e.evalRange G n a b).calls = (List.range' a (b + 1 - a)).map (fun x => (x, value G n h k x)) := by
  rw [Elem.evalRange_ok h64 he h1 h2 h3, show b - a + 1 = b + 1 - a by omega]
  exact ⟨rfl, rfl⟩

/-- **C75**: every element that can be constructed refuses each other range before the first call back. -/
theorem c75_range_outside (G : Bytes → Nat → UInt8) (n : Nat) (e : Elem) (he : Accepted e) (a b : Nat)
    (hx : ¬(e.min ≤ a ∧ a ≤ b ∧ b ≤ e.max)) :
    (e.evalRange G n a b).calls = [] ∧
    ((e.evalRange G n a b).out = .exc .invalidArgument ∨ (e.evalRange G n a b).out = .exc .outOfRange) ∧
    (b < a → (e.evalRange G n a b).out = .exc .invalidArgument) := by
  unfold Elem.evalRange
  cases hn : e.node with
  | inner key =>
    by_cases h : b < a
    · simp [h]
    · simp only [if_neg h, if_pos (show a < e.min ∨ b > e.max by omega)]
      simp [h]
  | leaf v =>
    have := accepted_leaf he hn
    by_cases h : b = a
    · simp only [if_neg (show ¬b ≠ a by omega), if_pos (show a ≠ e.min by omega)]
      exact ⟨trivial, .inr trivial, fun h' => by omega⟩
    · simp [h]

/-- **C75**: constraining an element that is a node to a range of its leaves gives nodes of the same tree which tile that range. -/
theorem c75_gen_inside (G : Bytes → Nat → UInt8) (n h : Nat) (k : Bytes) (h64 : h ≤ 64) (e : Elem) (he : IsNode G n h k e)
    (a b : Nat) (h1 : e.min ≤ a) (h2 : a ≤ b) (h3 : b ≤ e.max) :
    ∃ es, e.gen G n a b = .ok es ∧ (∀ e' ∈ es, IsNode G n h k e') ∧ Tiles es a (b + 1) :=
  Elem.gen_ok h64 he h1 h2 h3

/-- **C75**: every element that can be constructed refuses to be constrained to a range that leaves its interval. -/
theorem c75_gen_outside (G : Bytes → Nat → UInt8) (n : Nat) (e : Elem) (he : Accepted e) (a b : Nat) (hx : a < e.min ∨ e.max < b) :
    e.gen G n a b = .exc .outOfRange := by
  unfold Elem.gen
  cases hn : e.node with
  | inner key => simp only [if_pos (show a < e.min ∨ b > e.max by omega)]
  | leaf v =>
    have := accepted_leaf he hn
    simp only [if_pos (show a ≠ e.min ∨ b ≠ e.min by omega)]

/-- **C75**: the constructor accepts an empty vector, and the object refuses every leaf, every range and every constraint. -/
theorem c75_empty (G : Bytes → Nat → UInt8) (n : Nat) :
    ∃ c, mkCRCPrf [] = .ok c ∧ (∀ x, c.eval G n x = .exc .outOfRange) ∧
      (∀ a b, a ≤ b → c.evalRange G n a b = ⟨[], .exc .outOfRange⟩ ∧ c.constrain G n a b = .exc .outOfRange) := by
  refine ⟨⟨0, []⟩, rfl, fun x => ?_, fun a b h => ?_⟩
  · have : x < CRCPrf.minLeaf ⟨0, []⟩ ∨ x > CRCPrf.maxLeaf ⟨0, []⟩ := by
      show x < W64 - 1 ∨ x > 0
      omega
    unfold CRCPrf.eval
    rw [if_pos this]
  · have : a < CRCPrf.minLeaf ⟨0, []⟩ ∨ b > CRCPrf.maxLeaf ⟨0, []⟩ := by
      show a < W64 - 1 ∨ b > 0
      omega
    unfold CRCPrf.evalRange CRCPrf.constrain CRCPrf.gen
    rw [if_neg (by omega), if_pos this, if_pos this]
    exact ⟨rfl, rfl⟩

/-! ### Examples -/

/-- Node 1 at depth 1 of the toy tree (four leaves below it) and leaf 5. -/
def exInner : Elem := nodeElem toyG toyKey.treeHeight toyKey.key (toyKey.treeHeight - 1) 1

example : Accepted exInner := .inl ⟨_, _, _, _, _, mkInner_node toyG toyKey.key (by decide) (by decide) (by decide)⟩

example : IsNode toyG 2 toyKey.treeHeight toyKey.key exInner := isNode_nodeElem toyG 2 toyKey.key (by decide) (by decide) (by decide)

example : exInner.min = 4 ∧ exInner.max = 7 := by decide

example : exInner.eval toyG 2 5 = .ok (value toyG 2 toyKey.treeHeight toyKey.key 5) :=
  c75_inside toyG 2 _ _ (by decide) exInner (isNode_nodeElem toyG 2 toyKey.key (by decide) (by decide) (by decide)) 5 (by decide) (by decide)

example : exInner.eval toyG 2 3 = .exc .outOfRange ∧ exInner.gen toyG 2 5 8 = .exc .outOfRange ∧
    (exInner.evalRange toyG 2 5 8).calls = [] := by
  have h : Accepted exInner := .inl ⟨_, _, _, _, _, mkInner_node toyG toyKey.key (by decide) (by decide) (by decide)⟩
  exact ⟨c75_outside _ _ _ h 3 (by decide), c75_gen_outside _ _ _ h 5 8 (by decide), (c75_range_outside _ _ _ h 5 8 (by decide)).1⟩

example : ∃ e, mkLeaf [1, 2] 4 5 = .ok e ∧ e.eval toyG 2 4 = .exc .outOfRange ∧ e.gen toyG 2 5 6 = .exc .outOfRange ∧
    (e.evalRange toyG 2 5 6).out = .exc .invalidArgument := by
  have h : Accepted ⟨4, 1, 5, 5, .leaf [1, 2]⟩ := .inr ⟨[1, 2], 4, 5, by decide⟩
  exact ⟨_, by decide, c75_outside _ _ _ h 4 (by decide), c75_gen_outside _ _ _ h 5 6 (by decide), by decide⟩

end Verif.RCPrf
