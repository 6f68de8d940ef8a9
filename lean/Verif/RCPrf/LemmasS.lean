import Verif.RCPrf.Serial
import Verif.RCPrf.LemmasC

/-! Helper lemmas on sorting, assembling and serializing elements. -/

namespace Verif.RCPrf

open Verif Spec

/-- What the element constructors guarantee, with the C++ types of the arguments: heights are `uint8_t`, leaf indices
`uint64_t`, keys 32 bytes and leaf values `n` bytes long. -/
structure ElemOk (n : Nat) (e : Elem) : Prop where
  sh1 : 1 ≤ e.subHeight
  sh2 : e.subHeight < e.treeHeight
  th : e.treeHeight ≤ 255
  le : e.min ≤ e.max
  max : e.max < W64
  width : e.max - e.min = maxLeafIndex e.subHeight
  node : match e.node with
    | .inner k => k.length = 32 ∧ 2 ≤ e.subHeight
    | .leaf v => v.length = n ∧ e.subHeight = 1

/-! ### Sorting -/

theorem insertElem_perm (e : Elem) (l : List Elem) : (insertElem e l).Perm (e :: l) := by
  induction l with
  | nil => exact .refl _
  | cons a l ih =>
    rw [insertElem]
    split
    · exact .refl _
    · exact (ih.cons a).trans (.swap _ _ _)

theorem sortElems_perm (l : List Elem) : (sortElems l).Perm l := by
  induction l with
  | nil => exact .refl _
  | cons e l ih => rw [sortElems]; exact (insertElem_perm _ _).trans (ih.cons e)

def SortedE (l : List Elem) : Prop := l.Pairwise (fun a b => a.min ≤ b.min)

theorem insertElem_sorted (e : Elem) (l : List Elem) (h : SortedE l) : SortedE (insertElem e l) := by
  induction l with
  | nil => simp [insertElem, SortedE]
  | cons a l ih =>
    rw [insertElem]
    have h' := List.pairwise_cons.1 h
    split
    · rename_i hle
      refine List.pairwise_cons.2 ⟨?_, h⟩
      intro x hx
      rcases List.mem_cons.1 hx with rfl | hx
      · exact hle
      · exact Nat.le_trans hle (h'.1 x hx)
    · rename_i hgt
      refine List.pairwise_cons.2 ⟨?_, ih h'.2⟩
      intro x hx
      rcases List.mem_cons.1 ((insertElem_perm e l).subset hx) with rfl | hx
      · omega
      · exact h'.1 x hx

theorem sortElems_sorted (l : List Elem) : SortedE (sortElems l) := by
  induction l with
  | nil => simp [sortElems, SortedE]
  | cons e l ih => rw [sortElems]; exact insertElem_sorted _ _ ih

theorem sortElems_of_sorted (l : List Elem) (h : SortedE l) : sortElems l = l := by
  induction l with
  | nil => rfl
  | cons e l ih =>
    have h' := List.pairwise_cons.1 h
    rw [sortElems, ih h'.2]
    cases l with
    | nil => rfl
    | cons a l => rw [insertElem, if_pos (h'.1 a (by simp))]

/-- Width of an element in a tree of height at most 65. -/
theorem ElemOk.width_lt {n : Nat} {e : Elem} (h : ElemOk n e) (h65 : e.treeHeight ≤ 65) :
    e.max < e.min + 9223372036854775808 := by
  have h1 := h.sh1
  have h2 := h.sh2
  have hw := h.width
  rw [maxLeafIndex_eq h1 (by omega)] at hw
  have := two_pow_le_63 (h := e.subHeight) (by omega)
  have hp : 0 < 2 ^ (e.subHeight - 1) := Nat.two_pow_pos _
  have := h.le
  omega

/-- A sorted list passing the check of the constructor tiles an interval. -/
theorem tiles_of_sorted {n : Nat} : ∀ (l : List Elem), SortedE l → consecutive l = true →
    (∀ e ∈ l, ElemOk n e ∧ e.treeHeight ≤ 65) → ∀ e es, l = e :: es →
    ∃ b, Tiles l e.min b := by
  intro l
  induction l with
  | nil => intro _ _ _ e es h; cases h
  | cons a l ih =>
    intro hs hc hok e es he
    injection he with h1 h2
    subst h1 h2
    cases l with
    | nil => exact ⟨a.max + 1, rfl, (hok a (by simp)).1.le, rfl⟩
    | cons b l =>
      have hs' := List.pairwise_cons.1 hs
      rw [consecutive, Bool.and_eq_true, beq_iff_eq] at hc
      obtain ⟨t, ht⟩ := ih hs'.2 hc.2 (fun x hx => hok x (by simp only [List.mem_cons] at hx ⊢; tauto)) b l rfl
      have hle := hs'.1 b (by simp)
      have ha := (hok a (by simp)).1
      have hw := ha.width_lt (hok a (by simp)).2
      have hmx := ha.max
      have hal := ha.le
      have : b.min = a.max + 1 := by
        have := hc.1
        omega
      refine ⟨t, rfl, hal, ?_⟩
      rw [← this]; exact ht

theorem Spec.Tiles.strict {es : List Elem} {a b : Nat} (ht : Tiles es a b) :
    es.Pairwise (fun x y => x.min < y.min) := by
  induction es generalizing a with
  | nil => exact .nil
  | cons e es ih =>
    refine List.pairwise_cons.2 ⟨?_, ih ht.2.2⟩
    intro x hx
    have := ht.2.2.mem hx
    have := ht.2.1
    omega

/-- A sorted permutation of a list with strictly increasing minima is that list. -/
theorem sorted_perm_eq {l s : List Elem} (hl : l.Pairwise (fun x y => x.min < y.min)) (hs : SortedE s)
    (hp : s.Perm l) : s = l := by
  have hle : l.Pairwise (fun x y => x.min ≤ y.min) := hl.imp (fun h => Nat.le_of_lt h)
  refine List.Perm.eq_of_pairwise ?_ hs hle hp
  intro a b ha hb h1 h2
  by_contra hne
  -- equal minima in a strictly increasing list
  have key : ∀ (l : List Elem), l.Pairwise (fun x y => x.min < y.min) → a ∈ l → b ∈ l → a.min = b.min →
      a = b := by
    intro l
    induction l with
    | nil => intro _ h; cases h
    | cons c l ih =>
      intro hp ha hb hm
      have hp' := List.pairwise_cons.1 hp
      rcases List.mem_cons.1 ha with ha | ha <;> rcases List.mem_cons.1 hb with hb | hb
      · rw [ha, hb]
      · have := hp'.1 _ hb; subst ha; omega
      · have := hp'.1 _ ha; subst hb; omega
      · exact ih hp'.2 ha hb hm
  exact hne (key l hl (hp.subset ha) hb (by omega))

theorem getElementHeight_exc (es : List Elem) :
    getElementHeight es = .exc .invalidArgument ∨ ∃ h, getElementHeight es = .ok h ∧
      (∀ e ∈ es, e.treeHeight = h) := by
  cases es with
  | nil => exact .inr ⟨0, rfl, by simp⟩
  | cons e es =>
    rw [getElementHeight]
    split
    · rename_i h
      refine .inr ⟨e.treeHeight, rfl, ?_⟩
      intro x hx
      rcases List.mem_cons.1 hx with rfl | hx
      · rfl
      · rw [List.all_eq_true] at h
        simpa using h x hx
    · exact .inl rfl

theorem getElementHeight_perm {l l' : List Elem} (hp : l.Perm l') :
    getElementHeight l = getElementHeight l' := by
  have one : ∀ {l l' : List Elem}, l.Perm l' → ∀ h, getElementHeight l = .ok h →
      getElementHeight l' = .ok h := by
    intro l l' hp h hl
    rcases getElementHeight_exc l with he | ⟨h', he, hall⟩
    · rw [he] at hl; cases hl
    · rw [he] at hl
      injection hl with hl
      subst hl
      by_cases hne : l' = []
      · subst hne
        have := hp.eq_nil
        subst this
        rw [← he]
      · exact getElementHeight_ok hne (fun e hm => hall e (hp.symm.subset hm))
  rcases getElementHeight_exc l with he | ⟨h', he, _⟩
  · rcases getElementHeight_exc l' with he' | ⟨h'', he', _⟩
    · rw [he, he']
    · have := one hp.symm _ he'
      rw [this, he']
  · rw [he, one hp _ he]

/-! ### Serialization -/

@[simp] theorem serInfo_length (e : Elem) : e.serInfo.length = 17 := by
  simp [Elem.serInfo]

theorem ElemOk.body_length {n : Nat} {e : Elem} (h : ElemOk n e) : e.body.length = e.bodySize n := by
  have := h.node
  unfold Elem.body Elem.bodySize
  cases hn : e.node <;> rw [hn] at this <;> exact this.1

/-- Bytes of one element. -/
def Elem.ser (e : Elem) : Bytes := e.serInfo ++ e.body

theorem deserElem_ok {n : Nat} {e : Elem} (h : ElemOk n e) (junk : Bytes) :
    deserElem n e.treeHeight e.subHeight e.min e.max (e.body ++ junk) = .ok (e, e.bodySize n) := by
  have hnode := h.node
  have h1 := h.sh1
  have h2 := h.sh2
  have h3 := h.le
  have h4 := h.width
  unfold deserElem Elem.body Elem.bodySize
  obtain ⟨th, sh, mn, mx, node⟩ := e
  cases node with
  | inner k =>
    obtain ⟨hk, hs⟩ := hnode
    simp only at *
    rw [if_neg (by omega)]
    rw [if_neg (by rw [List.length_append]; omega)]
    have : (k ++ junk).take 32 = k := by rw [← hk]; simp
    rw [this]
    unfold mkInner mkElem
    rw [if_neg (by omega), if_neg (by omega), if_neg (by omega), if_neg (by omega)]
    simp only [Res.bind_ok, Res.pure_eq]
    rw [if_neg (by omega)]
    rfl
  | leaf v =>
    obtain ⟨hv, hs⟩ := hnode
    simp only at *
    subst hs
    have hmm : mn = mx := by
      have : maxLeafIndex 1 = 0 := by decide
      omega
    subst hmm
    rw [if_pos (by simp)]
    rw [if_neg (by rw [List.length_append]; omega)]
    have : (v ++ junk).take n = v := by rw [← hv]; simp
    rw [this]
    unfold mkLeaf mkElem
    rw [if_neg (by omega), if_neg (by omega), if_neg (by omega), if_neg (by omega)]
    rfl

theorem ElemOk.bodySize_pos {n : Nat} (hn : 0 < n) (e : Elem) : 0 < e.bodySize n := by
  unfold Elem.bodySize; split <;> omega

theorem deserElems_ok {n th : Nat} (hn : 0 < n) : ∀ (es : List Elem), (∀ e ∈ es, ElemOk n e ∧ e.treeHeight = th) →
    ∀ junk, deserElems n th es.length (es.flatMap (fun e => e.serInfo ++ e.body) ++ junk) =
      .ok (es, (es.flatMap (fun e => e.serInfo ++ e.body)).length) := by
  intro es
  induction es with
  | nil => intro _ _; rfl
  | cons e es ih =>
    intro hok junk
    obtain ⟨he, hth⟩ := hok e (by simp)
    have hlen := he.body_length
    have hpos := ElemOk.bodySize_pos hn e
    rw [List.flatMap_cons, List.length_cons, deserElems]
    have hL : ((e.serInfo ++ e.body ++ es.flatMap (fun e => e.serInfo ++ e.body)) ++ junk).length
        = 17 + e.bodySize n + ((es.flatMap (fun e => e.serInfo ++ e.body)) ++ junk).length := by
      simp only [List.length_append, serInfo_length, hlen]; omega
    rw [if_neg (by rw [hL]; omega)]
    have hsh : e.subHeight < 256 := by have := he.sh2; have := he.th; omega
    have hmx := he.max
    have hmn : e.min < W64 := by have := he.le; omega
    have hd17 : ((e.serInfo ++ e.body ++ es.flatMap (fun e => e.serInfo ++ e.body)) ++ junk).drop 17
        = e.body ++ (es.flatMap (fun e => e.serInfo ++ e.body) ++ junk) := by
      rw [List.append_assoc, List.append_assoc, List.drop_left' (serInfo_length e)]
    have hd2 : ((e.serInfo ++ e.body ++ es.flatMap (fun e => e.serInfo ++ e.body)) ++ junk).drop
        (17 + e.bodySize n) = es.flatMap (fun e => e.serInfo ++ e.body) ++ junk := by
      rw [← List.drop_drop, hd17, List.drop_left' hlen]
    have hhead : (((e.serInfo ++ e.body ++ es.flatMap (fun e => e.serInfo ++ e.body)) ++ junk).headD 0).toNat
        = e.subHeight := by
      simp [Elem.serInfo, Nat.mod_eq_of_lt hsh]
    have hmin : leNat ((((e.serInfo ++ e.body ++ es.flatMap (fun e => e.serInfo ++ e.body)) ++ junk).drop 1).take 8)
        = e.min := by
      have : ((((e.serInfo ++ e.body ++ es.flatMap (fun e => e.serInfo ++ e.body)) ++ junk).drop 1).take 8)
          = leBytes 8 e.min := by
        simp only [Elem.serInfo, List.cons_append, List.drop_succ_cons, List.drop_zero, List.append_assoc]
        rw [List.take_left' (leBytes_length _ _)]
      rw [this]
      exact leNat_leBytes_of_lt (by simpa using hmn)
    have hmax : leNat ((((e.serInfo ++ e.body ++ es.flatMap (fun e => e.serInfo ++ e.body)) ++ junk).drop 9).take 8)
        = e.max := by
      have : ((((e.serInfo ++ e.body ++ es.flatMap (fun e => e.serInfo ++ e.body)) ++ junk).drop 9).take 8)
          = leBytes 8 e.max := by
        simp only [Elem.serInfo, List.cons_append, List.drop_succ_cons, List.append_assoc]
        rw [List.drop_left' (leBytes_length _ _), List.take_left' (leBytes_length _ _)]
      rw [this]
      exact leNat_leBytes_of_lt (by simpa using hmx)
    simp only [hhead, hmin, hmax, hd17]
    rw [← hth, deserElem_ok he]
    simp only [Res.bind_ok]
    rw [hd2, hth, ih (fun x hx => hok x (by simp [hx]))]
    simp only [Res.bind_ok, Res.pure_eq, List.length_append, serInfo_length, hlen]

theorem serializedSize_eq {n : Nat} (es : List Elem) (h : ∀ e ∈ es, ElemOk n e) (t : Nat) :
    es.foldl (fun t e => t + 17 + e.bodySize n) t = t + (es.flatMap (fun e => e.serInfo ++ e.body)).length := by
  induction es generalizing t with
  | nil => rfl
  | cons e es ih =>
    rw [List.foldl_cons, ih (fun x hx => h x (by simp [hx])), List.flatMap_cons]
    simp only [List.length_append, serInfo_length, (h e (by simp)).body_length]
    omega

theorem mkElem_eq_ok {th sh mn mx : Nat} {nd : Node} {e : Elem} (h : mkElem th sh mn mx nd = .ok e) :
    1 ≤ sh ∧ sh < th ∧ mn ≤ mx ∧ mx - mn = maxLeafIndex sh ∧ e = ⟨th, sh, mn, mx, nd⟩ := by
  unfold mkElem at h
  by_cases h1 : sh = 0
  · rw [if_pos h1] at h; cases h
  by_cases h2 : sh ≥ th
  · rw [if_neg h1, if_pos h2] at h; cases h
  by_cases h3 : mx < mn
  · rw [if_neg h1, if_neg h2, if_pos h3] at h; cases h
  by_cases h4 : mx - mn ≠ maxLeafIndex sh
  · rw [if_neg h1, if_neg h2, if_neg h3, if_pos h4] at h; cases h
  rw [if_neg h1, if_neg h2, if_neg h3, if_neg h4] at h
  injection h with h
  exact ⟨by omega, by omega, by omega, by omega, h.symm⟩

theorem mkInner_eq_ok {th sh mn mx : Nat} {k : Bytes} {e : Elem} (h : mkInner k th sh mn mx = .ok e) :
    2 ≤ sh ∧ sh < th ∧ mn ≤ mx ∧ mx - mn = maxLeafIndex sh ∧ e = ⟨th, sh, mn, mx, .inner k⟩ := by
  unfold mkInner at h
  rw [Res.bind_eq_ok] at h
  obtain ⟨e', h1, h2⟩ := h
  obtain ⟨a1, a2, a3, a4, rfl⟩ := mkElem_eq_ok h1
  by_cases hs : sh ≤ 1
  · rw [if_pos hs] at h2; cases h2
  · rw [if_neg hs] at h2
    injection h2 with h2
    exact ⟨by omega, a2, a3, a4, h2.symm⟩

theorem map_eq_ok {α β : Type} {x : Res α} {f : α → β} {b : β} (h : f <$> x = .ok b) :
    ∃ a, x = .ok a ∧ f a = b := by
  cases x with
  | ok a => exact ⟨a, rfl, by simpa using h⟩
  | exc e => cases h
  | ub => cases h

/-- What the deserialization of one element can return. -/
theorem deserElem_sound {n th sh mn mx : Nat} (hth : th ≤ 255) (hmx : mx < W64) {inp : Bytes} {e : Elem} {r : Nat}
    (h : deserElem n th sh mn mx inp = .ok (e, r)) :
    ElemOk n e ∧ r = e.bodySize n ∧ r ≤ inp.length ∧ e.treeHeight = th := by
  have hm1 : maxLeafIndex 1 = 0 := by decide
  unfold deserElem at h
  split_ifs at h with h1 h2 h2
  · obtain ⟨rfl, rfl⟩ := h1
    obtain ⟨e', he', h⟩ := map_eq_ok h
    obtain ⟨a1, a2, a3, a4, rfl⟩ := mkElem_eq_ok he'
    simp only [Prod.mk.injEq] at h
    obtain ⟨rfl, rfl⟩ := h
    refine ⟨⟨a1, a2, hth, a3, hmx, a4, ?_, rfl⟩, rfl, by omega, rfl⟩
    rw [List.length_take]; omega
  · obtain ⟨e', he', h⟩ := map_eq_ok h
    obtain ⟨a1, a2, a3, a4, rfl⟩ := mkInner_eq_ok he'
    simp only [Prod.mk.injEq] at h
    obtain ⟨rfl, rfl⟩ := h
    refine ⟨⟨by simp only; omega, a2, hth, a3, hmx, a4, ?_, a1⟩, rfl, by omega, rfl⟩
    rw [List.length_take]; omega

theorem deserElems_sound {n th : Nat} (hth : th ≤ 255) : ∀ (cnt : Nat) (inp : Bytes) (es : List Elem) (r : Nat),
    deserElems n th cnt inp = .ok (es, r) →
    es.length = cnt ∧ r ≤ inp.length ∧ ∀ e ∈ es, ElemOk n e ∧ e.treeHeight = th := by
  intro cnt
  induction cnt with
  | zero =>
    intro inp es r h
    simp only [deserElems, Res.ok.injEq, Prod.mk.injEq] at h
    obtain ⟨rfl, rfl⟩ := h
    simp
  | succ cnt ih =>
    intro inp es r h
    rw [deserElems] at h
    split_ifs at h with hlen
    simp only [Res.bind_eq_ok] at h
    obtain ⟨⟨e, r1⟩, h1, ⟨es', r2⟩, h2, h3⟩ := h
    simp only [Res.pure_eq, Res.ok.injEq, Prod.mk.injEq] at h3
    obtain ⟨rfl, rfl⟩ := h3
    have hb : leNat ((inp.drop 9).take 8) < W64 := by
      refine Nat.lt_of_lt_of_le (leNat_lt _) ?_
      calc 256 ^ ((inp.drop 9).take 8).length ≤ 256 ^ 8 :=
            Nat.pow_le_pow_right (by omega) (by rw [List.length_take]; omega)
        _ ≤ W64 := by norm_num
    obtain ⟨a1, a2, a3, a4⟩ := deserElem_sound hth hb h1
    obtain ⟨b1, b2, b3⟩ := ih _ _ _ h2
    simp only at b2 ⊢
    rw [List.length_drop] at a3 b2
    refine ⟨by simp [b1], by omega, ?_⟩
    intro x hx
    rcases List.mem_cons.1 hx with rfl | hx
    · exact ⟨a1, a4⟩
    · exact b3 x hx

theorem mkElem_ne_ub (th sh mn mx : Nat) (nd : Node) : mkElem th sh mn mx nd ≠ .ub := by
  unfold mkElem; split_ifs <;> simp

theorem mkInner_ne_ub (k : Bytes) (th sh mn mx : Nat) : mkInner k th sh mn mx ≠ .ub := by
  unfold mkInner
  intro h
  rw [Res.bind_eq_ub] at h
  rcases h with h | ⟨e, _, h⟩
  · exact mkElem_ne_ub _ _ _ _ _ h
  · split_ifs at h

theorem deserElem_ne_ub (n th sh mn mx : Nat) (inp : Bytes) : deserElem n th sh mn mx inp ≠ .ub := by
  unfold deserElem
  split_ifs <;> try simp
  · have := mkElem_ne_ub th 1 mn mn (.leaf (inp.take n))
    unfold mkLeaf
    cases h : mkElem th 1 mn mn (.leaf (inp.take n)) <;> simp_all
  · have := mkInner_ne_ub (inp.take 32) th sh mn mx
    cases h : mkInner (inp.take 32) th sh mn mx <;> simp_all

theorem deserElems_ne_ub (n th : Nat) : ∀ (cnt : Nat) (inp : Bytes), deserElems n th cnt inp ≠ .ub := by
  intro cnt
  induction cnt with
  | zero => intro inp h; cases h
  | succ cnt ih =>
    intro inp h
    rw [deserElems] at h
    split_ifs at h
    simp only [Res.bind_eq_ub] at h
    rcases h with h | ⟨r, _, h | ⟨_, _, h⟩⟩
    · exact deserElem_ne_ub _ _ _ _ _ _ h
    · exact ih _ h
    · cases h

theorem mkCRCPrf_ne_ub (es : List Elem) : mkCRCPrf es ≠ .ub := by
  intro h
  unfold mkCRCPrf at h
  rw [Res.bind_eq_ub] at h
  rcases h with h | ⟨x, _, h⟩
  · rcases getElementHeight_exc es with he | ⟨_, he, _⟩ <;> rw [he] at h <;> cases h
  · simp only at h
    split_ifs at h

theorem mkCRCPrf_eq_ok {es : List Elem} {c : CRCPrf} (h : mkCRCPrf es = .ok c) :
    c.elems = sortElems es ∧ consecutive c.elems = true ∧ getElementHeight es = .ok c.treeHeight ∧
      ∀ e ∈ c.elems, e.treeHeight = c.treeHeight := by
  unfold mkCRCPrf at h
  rw [Res.bind_eq_ok] at h
  obtain ⟨hh, hg, h⟩ := h
  simp only at h
  split_ifs at h with hc
  injection h with h
  subst h
  refine ⟨rfl, hc, hg, ?_⟩
  rcases getElementHeight_exc es with he | ⟨h', he, hall⟩
  · rw [he] at hg; cases hg
  · rw [he] at hg
    injection hg with hg
    subst hg
    intro e hm
    exact hall e ((sortElems_perm es).subset hm)

/-- An assembled object is a fixed point of assembling. -/
theorem mkCRCPrf_idem {es : List Elem} {c : CRCPrf} (h : mkCRCPrf es = .ok c) : mkCRCPrf c.elems = .ok c := by
  obtain ⟨h1, h2, h3, h4⟩ := mkCRCPrf_eq_ok h
  have hsort : sortElems c.elems = c.elems := by
    rw [h1]; exact sortElems_of_sorted _ (sortElems_sorted _)
  have hh : getElementHeight c.elems = .ok c.treeHeight := by
    rw [h1, getElementHeight_perm (sortElems_perm es)]; exact h3
  unfold mkCRCPrf
  rw [hh]
  simp only [Res.bind_ok, hsort, h2, if_true]
  rfl

end Verif.RCPrf
