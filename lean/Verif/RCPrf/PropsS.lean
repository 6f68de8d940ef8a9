import Verif.RCPrf.LemmasS
import Verif.RCPrf.Props

/-!
# Properties C08, C09 (serialization), C11 (assembling), C57 (consistency of accepted elements)
-/

set_option linter.dupNamespace false

namespace Verif.RCPrf

open Verif Spec

/-! ## C08 -/

/-- **C08**: a non-empty constrained key assembled from constructible elements serializes to exactly
`serialized_size` bytes, and deserializing them, whatever follows, gives back the object and reports exactly these bytes
as read. -/
theorem c08_roundtrip (n : Nat) (hn : 0 < n) (es : List Elem) (hes : ∀ e ∈ es, ElemOk n e) (c : CRCPrf)
    (hc : mkCRCPrf es = .ok c) (hne : es ≠ []) (hlen : es.length ≤ 4294967295) :
    ∃ bs, c.serialize = .ok bs ∧ bs.length = c.serializedSize n ∧
      ∀ junk, deserializeC n (bs ++ junk) = .ok (c, c.serializedSize n) := by
  obtain ⟨h1, h2, h3, h4⟩ := mkCRCPrf_eq_ok hc
  have hp := sortElems_perm es
  rw [← h1] at hp
  have hl : c.elems.length = es.length := hp.length_eq
  have hok : ∀ e ∈ c.elems, ElemOk n e := fun e he => hes e (hp.subset he)
  have hcne : c.elems ≠ [] := by
    intro h0
    rw [h0] at hl
    exact hne (List.length_eq_zero_iff.1 (by simpa using hl.symm))
  have hth : c.treeHeight < 256 := by
    obtain ⟨e, he⟩ := List.exists_mem_of_ne_nil _ hcne
    rw [← h4 e he]
    have := (hok e he).th
    omega
  have hsz : c.serializedSize n = 5 + (c.elems.flatMap (fun e => e.serInfo ++ e.body)).length := by
    unfold CRCPrf.serializedSize
    rw [serializedSize_eq _ hok]
  have hbody : 17 < (c.elems.flatMap (fun e => e.serInfo ++ e.body)).length := by
    obtain ⟨e, es', he⟩ := List.exists_cons_of_ne_nil hcne
    have h5 := (hok e (by rw [he]; simp)).body_length
    have h6 := ElemOk.bodySize_pos hn e
    rw [he, List.flatMap_cons]
    simp only [List.length_append, serInfo_length]
    omega
  refine ⟨_, by unfold CRCPrf.serialize; rw [if_neg (by omega)], ?_, ?_⟩
  · rw [hsz]
    simp only [List.length_cons, List.length_append, leBytes_length]
    omega
  · intro junk
    unfold deserializeC
    rw [if_neg (by simp only [List.length_cons, List.length_append, leBytes_length]; omega)]
    have hcnt : leNat (leBytes 4 c.elems.length) = c.elems.length :=
      leNat_leBytes_of_lt (by norm_num; omega)
    have hd1 : (((UInt8.ofNat c.treeHeight :: (leBytes 4 c.elems.length ++
        c.elems.flatMap (fun e => e.serInfo ++ e.body))) ++ junk).drop 1).take 4 = leBytes 4 c.elems.length := by
      simp only [List.cons_append, List.drop_succ_cons, List.drop_zero, List.append_assoc]
      rw [List.take_left' (leBytes_length _ _)]
    have hd5 : ((UInt8.ofNat c.treeHeight :: (leBytes 4 c.elems.length ++
        c.elems.flatMap (fun e => e.serInfo ++ e.body))) ++ junk).drop 5 =
        c.elems.flatMap (fun e => e.serInfo ++ e.body) ++ junk := by
      simp only [List.cons_append, List.drop_succ_cons, List.append_assoc]
      rw [List.drop_left' (leBytes_length _ _)]
    have hh : ((UInt8.ofNat c.treeHeight :: (leBytes 4 c.elems.length ++
        c.elems.flatMap (fun e => e.serInfo ++ e.body)) ++ junk).headD 0).toNat = c.treeHeight := by
      simp [Nat.mod_eq_of_lt hth]
    simp only [hd1, hd5, hcnt, hh]
    rw [deserElems_ok hn c.elems (fun e he => ⟨hok e he, h4 e he⟩)]
    simp only [Res.bind_ok, mkCRCPrf_idem hc, Res.pure_eq, hsz]

/-- Elements produced by constraining are constructible. -/
theorem elemOk_of_isNode {G : Bytes → Nat → UInt8} {n h : Nat} {k : Bytes} (h64 : h ≤ 64) {e : Elem}
    (he : IsNode G n h k e) : ElemOk n e := by
  obtain ⟨e1, e2, e3, j, hj, hmin, hmax, hnode⟩ := he
  have hb := Spec.IsNode.bounds (G := G) (n := n) (h := h) (k := k) (e := e) ⟨e1, e2, e3, j, hj, hmin, hmax, hnode⟩
  have h63 := two_pow_le_63 h64
  have hp : 0 < 2 ^ (e.subHeight - 1) := Nat.two_pow_pos _
  have e4 : (j + 1) * 2 ^ (e.subHeight - 1) = j * 2 ^ (e.subHeight - 1) + 2 ^ (e.subHeight - 1) := by ring
  refine ⟨e2, by omega, by omega, by omega, by omega, ?_, ?_⟩
  · rw [maxLeafIndex_eq e2 (by omega)]; omega
  · rw [hnode]
    have hlen : ∀ l k y, 1 ≤ l → (treeLeaf G n l k y).length = n := by
      intro l
      induction l with
      | zero => intro _ _ h; omega
      | succ l ih =>
        intro k y _
        cases l with
        | zero => simp [treeLeaf, window]
        | succ l => rw [treeLeaf]; split <;> exact ih _ _ (by omega)
    by_cases hs : e.subHeight = 1
    · rw [if_pos hs]
      exact ⟨hlen _ _ _ (by omega), hs⟩
    · rw [if_neg hs]
      refine ⟨?_, by omega⟩
      obtain ⟨d, hd⟩ : ∃ d, h - e.subHeight = d + 1 := ⟨h - e.subHeight - 1, by omega⟩
      rw [hd, nodeAt]
      simp [window]

/-- **C08** for every constrained key obtained from a full key by constraining (once, and by `c05_reconstrain` any number
of times): it survives serialization. -/
theorem c08_roundtrip_constrained (G : Bytes → Nat → UInt8) (n : Nat) (hn : 0 < n) (p : RCPrf) (mn mx : Nat) (c : CRCPrf)
    (hh : p.treeHeight ≤ 64) (hc : p.constrain G n mn mx = .ok c) :
    ∃ bs, c.serialize = .ok bs ∧ bs.length = c.serializedSize n ∧
      ∀ junk, deserializeC n (bs ++ junk) = .ok (c, c.serializedSize n) := by
  obtain ⟨hh2, hle, hmx, _, hcon⟩ := constrain_accepts hh hc
  have hm := (mkCRCPrf_ok hh hle hcon.nodes hcon.tiles).1
  have hlen := (c06_cover G n p mn mx c hh hc).2.2
  have hcc : (⟨p.treeHeight, c.elems⟩ : CRCPrf) = c := by rw [← hcon.height]
  rw [hcc] at hm
  refine c08_roundtrip n hn c.elems (fun e he => elemOk_of_isNode hh (hcon.nodes e he)) c hm ?_ ?_
  · intro h0
    have := hcon.tiles
    rw [h0] at this
    simp only [Tiles] at this
    omega
  · have : Nat.max 1 (2 * (p.treeHeight - 2)) ≤ 4294967295 := by
      rw [Nat.max_le]; omega
    omega

example : ∃ c bs, toyKey.constrain toyG 2 1 6 = .ok c ∧ c.serialize = .ok bs ∧ bs.length = 141 ∧
    deserializeC 2 (bs ++ [1, 2, 3]) = .ok (c, 141) := by
  refine ⟨_, _, rfl, rfl, ?_, ?_⟩ <;> decide +kernel

/-- Deserialization of arbitrary bytes never has undefined behaviour; if it succeeds, it read no more than the input and
the object is again one to which `c08_roundtrip` applies. -/
theorem c08_deserialize_sound (n : Nat) (inp : Bytes) :
    deserializeC n inp ≠ .ub ∧
    ∀ c r, deserializeC n inp = .ok (c, r) →
      r ≤ inp.length ∧ mkCRCPrf c.elems = .ok c ∧ (∀ e ∈ c.elems, ElemOk n e) ∧ c.elems.length ≤ 4294967295 := by
  constructor
  · intro h
    unfold deserializeC at h
    split_ifs at h
    simp only [Res.bind_eq_ub] at h
    rcases h with h | ⟨_, _, h | ⟨_, _, h⟩⟩
    · exact deserElems_ne_ub _ _ _ _ h
    · exact mkCRCPrf_ne_ub _ h
    · cases h
  · intro c r h
    unfold deserializeC at h
    split_ifs at h with hlen
    simp only [Res.bind_eq_ok] at h
    obtain ⟨⟨es, r1⟩, h1, c', h2, h3⟩ := h
    simp only [Res.pure_eq, Res.ok.injEq, Prod.mk.injEq] at h3
    obtain ⟨rfl, rfl⟩ := h3
    have hth : (inp.headD 0).toNat ≤ 255 := by have := (inp.headD 0).toNat_lt; omega
    obtain ⟨a1, a2, a3⟩ := deserElems_sound hth _ _ _ _ h1
    rw [List.length_drop] at a2
    simp only at h2 ⊢
    obtain ⟨b1, _, _, _⟩ := mkCRCPrf_eq_ok h2
    refine ⟨by omega, mkCRCPrf_idem h2, ?_, ?_⟩
    · intro e he
      rw [b1] at he
      exact (a3 e ((sortElems_perm es).subset he)).1
    · rw [b1, (sortElems_perm es).length_eq, a1]
      have := leNat_lt ((inp.drop 1).take 4)
      have h4 : 256 ^ ((inp.drop 1).take 4).length ≤ 256 ^ 4 :=
        Nat.pow_le_pow_right (by omega) (by rw [List.length_take]; omega)
      have h5 : (256 : Nat) ^ 4 = 4294967296 := by norm_num
      omega

/-- Remark to C08: the empty constrained key (which `constrain` can return, `c10_inverted_false`) serializes, but
deserialization refuses the result. -/
theorem c08_empty_not_roundtrip (n : Nat) :
    (⟨0, []⟩ : CRCPrf).serialize = .ok [0, 0, 0, 0, 0] ∧
    deserializeC n [0, 0, 0, 0, 0] = .exc .invalidArgument := by
  constructor <;> rfl

/-! ## C09 -/

/-- **C09**: a serialized full key is 33 bytes long and is read back exactly, whatever follows. -/
theorem c09_roundtrip (k : Bytes) (h : Nat) (p : RCPrf) (hk : k.length = 32) (hp : mkRCPrf k h = .ok p) (junk : Bytes) :
    p.serialize.length = 33 ∧ deserializeF (p.serialize ++ junk) = .ok (p, 33) := by
  unfold mkRCPrf at hp
  by_cases h0 : h = 0
  · rw [if_pos h0] at hp; cases hp
  by_cases h1 : h > 64
  · rw [if_neg h0, if_pos h1] at hp; cases hp
  rw [if_neg h0, if_neg h1] at hp
  injection hp with hp
  subst hp
  refine ⟨by simp [RCPrf.serialize, hk], ?_⟩
  unfold deserializeF RCPrf.serialize
  rw [if_neg (by simp), if_neg (by simp; omega)]
  have e1 : ((UInt8.ofNat h :: k ++ junk).drop 1).take 32 = k := by
    simp only [List.cons_append, List.drop_succ_cons, List.drop_zero]
    rw [List.take_left' hk]
  have e2 : ((UInt8.ofNat h :: k ++ junk).headD 0).toNat = h := by
    simp; omega
  simp only [e1, e2]
  unfold mkRCPrf
  rw [if_neg h0, if_neg h1]
  rfl

example : ([7, 0, 0, 0, 0, 0, 0, 0, 0, 0, 0, 0, 0, 0, 0, 0, 0, 0, 0, 0, 0, 0, 0, 0, 0, 0, 0, 0, 0, 0, 0, 1] : Bytes).length
    = 32 ∧ (mkRCPrf [7] 48).isOk = true := by decide

/-- **C09**, arbitrary input: throws `invalid_argument`, or returns an object of height 1 to 64 whose serialization is
the first 33 bytes of the input, which is at least that long. -/
theorem c09_deserialize_sound (inp : Bytes) :
    deserializeF inp = .exc .invalidArgument ∨
    ∃ p, deserializeF inp = .ok (p, 33) ∧ 1 ≤ p.treeHeight ∧ p.treeHeight ≤ 64 ∧ p.key.length = 32 ∧
      33 ≤ inp.length ∧ p.serialize = inp.take 33 := by
  unfold deserializeF
  by_cases h0 : inp.length < 1
  · rw [if_pos h0]; exact .inl rfl
  by_cases h1 : inp.length - 1 < 32
  · rw [if_neg h0, if_pos h1]; exact .inl rfl
  rw [if_neg h0, if_neg h1]
  unfold mkRCPrf
  by_cases h2 : (inp.headD 0).toNat = 0
  · rw [if_pos h2]; exact .inl rfl
  by_cases h3 : (inp.headD 0).toNat > 64
  · rw [if_neg h2, if_pos h3]; exact .inl rfl
  rw [if_neg h2, if_neg h3]
  refine .inr ⟨_, rfl, by simp only; omega, by simp only; omega, ?_, by omega, ?_⟩
  · simp only [List.length_take, List.length_drop]; omega
  · cases inp with
    | nil => simp at h0
    | cons b inp => simp [RCPrf.serialize]

/-! ## C11 -/

/-- **C11**, order independence: for constructible elements of trees of height at most 65 (full keys have height at most
64), assembling gives the same result, object or exception, for every ordering of the list. -/
theorem c11_order_independent (n : Nat) (l l' : List Elem) (hp : l.Perm l')
    (hok : ∀ e ∈ l, ElemOk n e ∧ e.treeHeight ≤ 65) : mkCRCPrf l = mkCRCPrf l' := by
  have one : ∀ {l l' : List Elem}, l.Perm l' → (∀ e ∈ l, ElemOk n e ∧ e.treeHeight ≤ 65) →
      consecutive (sortElems l) = true → sortElems l = sortElems l' := by
    intro l l' hp hok hc
    cases hs : sortElems l with
    | nil =>
      have h1 := (sortElems_perm l).length_eq
      rw [hs] at h1
      have : l' = [] := List.length_eq_zero_iff.1 (by rw [← hp.length_eq]; simpa using h1.symm)
      subst this; rfl
    | cons e es =>
      obtain ⟨b, ht⟩ := tiles_of_sorted (n := n) (sortElems l) (sortElems_sorted l) hc
        (fun x hx => hok x ((sortElems_perm l).subset hx)) e es hs
      have := sorted_perm_eq ht.strict (sortElems_sorted l')
        ((sortElems_perm l').trans (hp.symm.trans (sortElems_perm l).symm))
      rw [this, hs]
  have hok' : ∀ e ∈ l', ElemOk n e ∧ e.treeHeight ≤ 65 := fun e he => hok e (hp.symm.subset he)
  unfold mkCRCPrf
  rw [getElementHeight_perm hp]
  rcases getElementHeight_exc l' with he | ⟨h, he, _⟩
  · rw [he]; rfl
  · rw [he]
    simp only [Res.bind_ok]
    by_cases hc : consecutive (sortElems l) = true
    · rw [one hp hok hc]
    · by_cases hc' : consecutive (sortElems l') = true
      · rw [one hp.symm hok' hc']
      · rw [if_neg hc, if_neg hc']

/-- **C11**, independence of the sorting algorithm: whatever order an implementation of `std::sort` leaves elements with
equal keys in, a sorted arrangement that passes the check is the one of the model. -/
theorem c11_any_sort (n : Nat) (l s : List Elem) (hok : ∀ e ∈ l, ElemOk n e ∧ e.treeHeight ≤ 65) (hp : s.Perm l)
    (hs : s.Pairwise (fun a b => a.min ≤ b.min)) (hc : consecutive s = true) : s = sortElems l := by
  cases hl : s with
  | nil =>
    subst hl
    have := hp.symm.eq_nil
    subst this; rfl
  | cons e es =>
    obtain ⟨b, ht⟩ := tiles_of_sorted (n := n) s hs hc (fun x hx => hok x (hp.subset hx)) e es hl
    have := sorted_perm_eq ht.strict (sortElems_sorted l) ((sortElems_perm l).trans hp.symm)
    rw [this, hl]

/-- **C11**, acceptance: an accepted object has the given elements, all of the object's height, and they tile the leaves
from its minimum to its maximum without gap or overlap. -/
theorem c11_accepted_covers (n : Nat) (l : List Elem) (hne : l ≠ []) (hok : ∀ e ∈ l, ElemOk n e ∧ e.treeHeight ≤ 65)
    (c : CRCPrf) (hc : mkCRCPrf l = .ok c) :
    c.elems.Perm l ∧ (∀ e ∈ l, e.treeHeight = c.treeHeight) ∧ Tiles c.elems c.minLeaf (c.maxLeaf + 1) ∧
      ∀ x, (c.minLeaf ≤ x ∧ x ≤ c.maxLeaf) ↔ ∃ e ∈ l, e.min ≤ x ∧ x ≤ e.max := by
  obtain ⟨h1, h2, h3, h4⟩ := mkCRCPrf_eq_ok hc
  have hp : c.elems.Perm l := by rw [h1]; exact sortElems_perm l
  cases hl : c.elems with
  | nil =>
    rw [hl] at hp
    exact absurd hp.symm.eq_nil hne
  | cons e es =>
    obtain ⟨b, ht⟩ := tiles_of_sorted (n := n) c.elems (by rw [h1]; exact sortElems_sorted l) h2
      (fun x hx => hok x (hp.subset hx)) e es hl
    have hcne : c.elems ≠ [] := by rw [hl]; simp
    have hmin : c.minLeaf = e.min := by unfold CRCPrf.minLeaf; rw [hl]
    obtain ⟨z, hz1, hz2⟩ := tiles_last ht hcne
    have hmax : c.maxLeaf + 1 = b := by unfold CRCPrf.maxLeaf; rw [hz1]; simp only; omega
    rw [← hl, hmin, hmax]
    refine ⟨hp, fun x hx => h4 x (hp.symm.subset hx), ht, fun x => ⟨?_, ?_⟩⟩
    · rintro ⟨hx1, hx2⟩
      have hex : ∀ (es : List Elem) (a b : Nat), Tiles es a b → a ≤ x → x < b →
          ∃ e ∈ es, e.min ≤ x ∧ x ≤ e.max := by
        intro es
        induction es with
        | nil => intro a b ht; simp only [Tiles] at ht; omega
        | cons e es ih =>
          intro a b ht ha hb
          by_cases hx : x ≤ e.max
          · exact ⟨e, by simp, by have := ht.1; omega, hx⟩
          · obtain ⟨e', he', hh'⟩ := ih _ _ ht.2.2 (by omega) hb
            exact ⟨e', by simp [he'], hh'⟩
      obtain ⟨y, hy, hyy⟩ := hex _ _ _ ht hx1 (by omega)
      exact ⟨y, hp.subset hy, hyy⟩
    · rintro ⟨y, hy, hy1, hy2⟩
      have := ht.mem (hp.symm.subset hy)
      omega

/-- **C11**, refusal: lists with different tree heights, with a gap or with an overlap are refused. -/
theorem c11_refused (n : Nat) (l : List Elem) (hok : ∀ e ∈ l, ElemOk n e ∧ e.treeHeight ≤ 65)
    (hbad : (∃ e ∈ l, ∃ e' ∈ l, e.treeHeight ≠ e'.treeHeight) ∨
      (∃ x, (∃ e ∈ l, e.max < x) ∧ (∃ e ∈ l, x < e.min) ∧ ∀ e ∈ l, ¬ (e.min ≤ x ∧ x ≤ e.max)) ∨
      ¬ l.Pairwise (fun a b => a.max < b.min ∨ b.max < a.min)) :
    mkCRCPrf l = .exc .invalidArgument := by
  cases hr : mkCRCPrf l with
  | ub => exact absurd hr (mkCRCPrf_ne_ub l)
  | exc e =>
    unfold mkCRCPrf at hr
    rcases getElementHeight_exc l with he | ⟨h, he, _⟩
    · rw [he] at hr
      rw [← hr]; rfl
    · rw [he] at hr
      simp only [Res.bind_ok] at hr
      split_ifs at hr
      rw [← hr]
  | ok c =>
    exfalso
    have hne : l ≠ [] := by
      rintro rfl
      simp at hbad
    obtain ⟨a1, a2, a3, a4⟩ := c11_accepted_covers n l hne hok c hr
    rcases hbad with ⟨e, he, e', he', hd⟩ | ⟨x, ⟨e, he, hx⟩, ⟨e', he', hx'⟩, hno⟩ | hov
    · exact hd (by rw [a2 e he, a2 e' he'])
    · have h1 := a3.mem (a1.symm.subset he)
      have h2 := a3.mem (a1.symm.subset he')
      obtain ⟨y, hy, hyy⟩ := (a4 x).1 ⟨by omega, by omega⟩
      exact hno y hy hyy
    · apply hov
      have key : ∀ (es : List Elem) (a b : Nat), Tiles es a b →
          es.Pairwise (fun a b => a.max < b.min ∨ b.max < a.min) := by
        intro es
        induction es with
        | nil => intro _ _ _; exact .nil
        | cons e es ih =>
          intro a b ht
          refine List.pairwise_cons.2 ⟨?_, ih _ _ ht.2.2⟩
          intro y hy
          have := ht.2.2.mem hy
          left; omega
      exact (key _ _ _ a3).perm a1 (by intro a b h; tauto)

/-- Three consecutive elements of a tree of height 4, in two orders. -/
example : ElemOk 1 ⟨4, 1, 3, 3, .leaf [9]⟩ ∧
    mkCRCPrf [⟨4, 1, 3, 3, .leaf [9]⟩, ⟨4, 1, 1, 1, .leaf [5]⟩, ⟨4, 1, 2, 2, .leaf [7]⟩] =
      .ok ⟨4, [⟨4, 1, 1, 1, .leaf [5]⟩, ⟨4, 1, 2, 2, .leaf [7]⟩, ⟨4, 1, 3, 3, .leaf [9]⟩]⟩ ∧
    mkCRCPrf [⟨4, 1, 3, 3, .leaf [9]⟩, ⟨4, 1, 1, 1, .leaf [5]⟩] = .exc .invalidArgument := by
  refine ⟨⟨by decide, by decide, by decide, by decide, by decide, by decide, ?_⟩, ?_, ?_⟩
  · exact ⟨rfl, rfl⟩
  · decide
  · decide

/-- Why the height bound: the element constructor also accepts heights above 65, where one element spans all 64-bit
indices and the test of consecutiveness wraps around; then two overlapping elements are accepted and the order of the list
matters. -/
theorem c11_height66_false :
    let a : Elem := ⟨66, 65, 0, W64 - 1, .inner (List.replicate 32 1)⟩
    let b : Elem := ⟨66, 65, 0, W64 - 1, .inner (List.replicate 32 2)⟩
    mkInner (List.replicate 32 1) 66 65 0 (W64 - 1) = .ok a ∧ mkInner (List.replicate 32 2) 66 65 0 (W64 - 1) = .ok b ∧
    mkCRCPrf [a, b] = .ok ⟨66, [a, b]⟩ ∧ mkCRCPrf [b, a] = .ok ⟨66, [b, a]⟩ := by
  decide +kernel

/-! ## C57 -/

/-- **C57** (largest true part): when the elements are nodes of a tree of height at most 64 with consecutive intervals,
range evaluation of the assembled object calls back on exactly the requested leaves with the values of `eval`.
Missing: the constructors do not check that an element is aligned with the tree (`c57_unaligned_false`). -/
theorem c57_eval_range_agrees_partial (G : Bytes → Nat → UInt8) (n h : Nat) (k : Bytes) (h64 : h ≤ 64) (l : List Elem)
    (hl : ∀ e ∈ l, IsNode G n h k e) (hne : l ≠ []) (c : CRCPrf) (hc : mkCRCPrf l = .ok c) (a b : Nat)
    (h1 : c.minLeaf ≤ a) (h2 : a ≤ b) (h3 : b ≤ c.maxLeaf) :
    (c.evalRange G n a b).out = .ok () ∧
    (c.evalRange G n a b).calls.map Prod.fst = List.range' a (b - a + 1) ∧
    ∀ r ∈ (c.evalRange G n a b).calls, c.eval G n r.1 = .ok r.2 := by
  have hok : ∀ e ∈ l, ElemOk n e ∧ e.treeHeight ≤ 65 := fun e he =>
    ⟨elemOk_of_isNode h64 (hl e he), by rw [(hl e he).1]; omega⟩
  obtain ⟨a1, a2, a3, a4⟩ := c11_accepted_covers n l hne hok c hc
  have hle : c.minLeaf ≤ c.maxLeaf := by omega
  have hth : c.treeHeight = h := by
    obtain ⟨e, he⟩ := List.exists_mem_of_ne_nil _ hne
    rw [← a2 e he, (hl e he).1]
  have hcon : IsConstrained G n h k c.minLeaf c.maxLeaf c :=
    ⟨hth, hle, fun e he => hl e (a1.subset he), a3⟩
  rw [CRCPrf.evalRange_ok h64 hcon h1 h2 h3]
  refine ⟨rfl, ?_, ?_⟩
  · simp [Run.done, specCalls, Function.comp_def]
  · intro r hr
    simp only [Run.done, specCalls, List.mem_map, List.mem_range'_1] at hr
    obtain ⟨x, hx, rfl⟩ := hr
    exact CRCPrf.eval_ok h64 hcon (by simp only; omega) (by simp only; omega)

/-- **C57 is false for the code**: the constructors accept an element of two leaves starting at an odd leaf, and on the
object built from it `eval(1)` and `eval_range(1,1)` return different values for leaf 1. -/
theorem c57_unaligned_false :
    ∃ e c, mkInner (List.replicate 32 3) 4 2 1 2 = .ok e ∧ mkCRCPrf [e] = .ok c ∧
      ∃ v w, c.eval toyG 1 1 = .ok v ∧ c.evalRange toyG 1 1 1 = ⟨[(1, w)], .ok ()⟩ ∧ v ≠ w := by
  refine ⟨_, _, rfl, rfl, leafValue toyG 1 (List.replicate 32 3) true, leafValue toyG 1 (List.replicate 32 3) false,
    ?_, ?_, ?_⟩ <;> decide +kernel

end Verif.RCPrf
