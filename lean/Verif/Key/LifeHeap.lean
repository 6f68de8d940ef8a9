import Verif.Key.Life

/-! From programs on values to programs on the heap. -/

namespace Verif.Key.Life

open Verif

/-- What a user can see of object `j`: nothing (destroyed, or never made), or its value and whether it is locked. -/
def view (st : St) (j : Nat) : Option Spec.Obj := (st.obj j).map (absObj st.heap)

/-- Keys own their buffers one to one; all other buffers have been wiped and released. -/
def Clean (st : St) : Prop := Inv true st ∧ NoLeak st

/-- The effect of a call: the object `i` (if given) is empty afterwards, `new` are the new objects with their numbers, everything else is as before. -/
structure Effect (st st' : St) (i : Option Nat) (new : List (Nat × Spec.Obj)) : Prop where
  clean : Clean st'
  taken : ∀ j, i = some j → view st' j = some .empty
  made : ∀ j o, (j, o) ∈ new → view st j = none ∧ view st' j = some o
  rest : ∀ j, i ≠ some j → (∀ o, (j, o) ∉ new) → view st' j = view st j

/-! ## From values to the heap -/

theorem sim_exists (st : St) : ∃ a, Sim st a ∧ a.length = st.objs.length := by
  refine ⟨st.objs.map fun x => x.map (absObj st.heap), ⟨by simp, fun i => ?_⟩, by simp⟩
  unfold Spec.obj St.obj
  rw [List.getElem?_map]
  cases h : st.objs[i]? with
  | none => rfl
  | some x => cases x <;> rfl

theorem eq_of_obj {a b : Spec.St} (hl : a.length = b.length) (h : ∀ j, Spec.obj b j = Spec.obj a j) : b = a := by
  refine List.ext_getElem? fun j => ?_
  have := h j
  unfold Spec.obj at this
  by_cases hj : j < a.length
  · rw [List.getElem?_eq_getElem hj, List.getElem?_eq_getElem (hl ▸ hj)] at this ⊢
    cases hb : b[j]'(hl ▸ hj) with
    | none =>
      rw [hb] at this
      cases ha : a[j] with
      | none => rfl
      | some y => rw [ha] at this; cases this
    | some x =>
      rw [hb] at this
      cases ha : a[j] with
      | none => rw [ha] at this; cases this
      | some y => rw [ha] at this; cases this; rfl
  · rw [List.getElem?_eq_none (by omega), List.getElem?_eq_none (by omega)]

theorem effect_none {α : Type} {p : P α} {st : St} {r : Res α} {new : List (Nat × Spec.Obj)} (hp : p.Pre) (hc : Clean st)
    (h : ∀ a, a.length = st.objs.length → (∀ j, Spec.obj a j = view st j) → ∃ t, p.runS a = (a ++ t, r, 0) ∧ lives a.length t = new) :
    (p.run true st).2 = r ∧ Effect st (p.run true st).1 none new := by
  obtain ⟨a, hs, hl⟩ := sim_exists st
  obtain ⟨t, hr, hn⟩ := h a hl hs.objs
  obtain ⟨h1, h2, h3, h4⟩ := run_refines p hp hc.1 hs
  rw [hr] at h1 h2 h4
  have hv : ∀ j, view (p.run true st).1 j = Spec.obj (a ++ t) j := fun j => (h2.objs j).symm
  have hv0 : ∀ j, view st j = Spec.obj a j := fun j => (hs.objs j).symm
  have hge : ∀ {j : Nat}, a.length ≤ j → Spec.obj a j = none := fun h => by simp [Spec.obj, List.getElem?_eq_none h]
  have hnew : ∀ {j : Nat}, a.length ≤ j → Spec.obj (a ++ t) j = Spec.obj t (j - a.length) := fun {j} h => by
    have := obj_new a t (j - a.length)
    rw [Nat.add_sub_cancel' h] at this
    exact this
  refine ⟨h1, ⟨h3, h4 hc.2 rfl⟩, fun j hj => (by cases hj), fun j o hj => ?_, fun j _ hj => ?_⟩
  · rw [← hn] at hj
    obtain ⟨hle, ho⟩ := mem_lives.1 hj
    rw [hv, hv0, hge hle, hnew hle]
    exact ⟨rfl, ho⟩
  · rw [hv, hv0]
    by_cases hle : a.length ≤ j
    · rw [hge hle, hnew hle]
      cases ho : Spec.obj t (j - a.length) with
      | none => rfl
      | some o => exact absurd (by rw [← hn]; exact mem_lives.2 ⟨hle, ho⟩) (hj o)
    · exact obj_old (by omega)

theorem effect_some {α : Type} {p : P α} {st : St} {r : Res α} {i : Nat} {new : List (Nat × Spec.Obj)} (hp : p.Pre) (hc : Clean st)
    (hi : view st i ≠ none)
    (h : ∀ a, a.length = st.objs.length → (∀ j, Spec.obj a j = view st j) → ∃ t, p.runS a = (a.set i (some .empty) ++ t, r, 0) ∧ lives a.length t = new) :
    (p.run true st).2 = r ∧ Effect st (p.run true st).1 (some i) new := by
  obtain ⟨a, hs, hl⟩ := sim_exists st
  obtain ⟨t, hr, hn⟩ := h a hl hs.objs
  obtain ⟨h1, h2, h3, h4⟩ := run_refines p hp hc.1 hs
  rw [hr] at h1 h2 h4
  have hlt : i < a.length := by
    cases ho : Spec.obj a i with
    | none => exact absurd ((hs.objs i).symm.trans ho) hi
    | some o => exact sobj_lt ho
  have hv : ∀ j, view (p.run true st).1 j = Spec.obj (a.set i (some .empty) ++ t) j := fun j => (h2.objs j).symm
  have hv0 : ∀ j, view st j = Spec.obj a j := fun j => (hs.objs j).symm
  have hge : ∀ {j : Nat}, a.length ≤ j → Spec.obj a j = none := fun h => by simp [Spec.obj, List.getElem?_eq_none h]
  have hnew : ∀ {j : Nat}, a.length ≤ j → Spec.obj (a.set i (some .empty) ++ t) j = Spec.obj t (j - a.length) := fun {j} h => by
    have := obj_new (a.set i (some .empty)) t (j - a.length)
    rw [List.length_set, Nat.add_sub_cancel' h] at this
    exact this
  refine ⟨h1, ⟨h3, h4 hc.2 rfl⟩, fun j hj => ?_, fun j o hj => ?_, fun j hij hj => ?_⟩
  · obtain rfl := Option.some.inj hj
    rw [hv, obj_old (by simpa using hlt), obj_set hlt]
  · rw [← hn] at hj
    obtain ⟨hle, ho⟩ := mem_lives.1 hj
    rw [hv, hv0, hge hle, hnew hle]
    exact ⟨rfl, ho⟩
  · rw [hv, hv0]
    by_cases hle : a.length ≤ j
    · rw [hge hle, hnew hle]
      cases ho : Spec.obj t (j - a.length) with
      | none => rfl
      | some o => exact absurd (by rw [← hn]; exact mem_lives.2 ⟨hle, ho⟩) (hj o)
    · rw [obj_old (by rw [List.length_set]; omega), sobj_set _ _ _ _ hlt, if_neg (fun h => hij (by rw [h]))]

/-! ## Obligations of the programs -/

theorem pre_bind {α β : Type} {p : P α} {f : α → P β} (hp : p.Pre) (hf : ∀ x, (f x).Pre) : (p >>= f).Pre :=
  pre_then hp fun r => by cases r with
    | ok x => exact hf x
    | exc e => exact trivial
    | ub => exact trivial

theorem pre_pure {α : Type} (x : α) : (pure x : P α).Pre := trivial

theorem pre_throw {α : Type} (e : Exc) : (throw e : P α).Pre := trivial

theorem pre_mk {N : Nat} {o : Op} (h : o.pre N) : (mk N o).Pre := ⟨h, fun _ r => by cases r <;> exact trivial⟩

theorem pre_act {N : Nat} {o : Op} (h : o.pre N) : (act N o).Pre := ⟨h, fun _ _ => trivial⟩

theorem pre_within {α : Type} {new : P Nat} {body : Nat → P α} (hn : new.Pre) (hb : ∀ j, (body j).Pre) : (within new body).Pre :=
  pre_bind hn fun j => pre_then (hb j) fun r => by
    cases r with
    | ok x => exact pre_then (pre_act trivial) fun r => by cases r <;> exact trivial
    | exc x => exact pre_then (pre_act trivial) fun r => by cases r <;> exact trivial
    | ub => exact trivial

theorem pre_newFilled {N : Nat} {junk : Bytes} {cb : P Bytes} (h : cb.Pre) : (newFilled N junk cb).Pre :=
  pre_then h fun r => by
    cases r with
    | ok d => exact pre_mk trivial
    | exc e => exact pre_then (pre_act trivial) fun _ => trivial
    | ub => exact trivial

theorem pre_plainCtor (i : Nat) : (plainCtor i).Pre := pre_mk trivial

theorem pre_hmacCtor (i : Nat) : (hmacCtor i).Pre :=
  pre_bind (pre_mk trivial) fun j e => by
    cases e with
    | true => exact pre_bind (pre_act trivial) fun _ => trivial
    | false => exact trivial

theorem pre_rcprfCtor (i n : Nat) : (rcprfCtor i n).Pre :=
  pre_bind (pre_mk trivial) fun j => by
    split
    · exact pre_bind (pre_act trivial) fun _ => trivial
    · split
      · exact pre_bind (pre_act trivial) fun _ => trivial
      · exact trivial

theorem pre_elemCtor (b : Bool) (i n : Nat) : (elemCtor b i n).Pre := by
  unfold elemCtor
  split
  · exact trivial
  · refine pre_bind (pre_mk trivial) fun j => ?_
    split
    · exact pre_bind (pre_act trivial) fun _ => trivial
    · exact trivial

theorem pre_prpCtor (s : Bytes → Bytes) (junk : Bytes) (i : Nat) : (prpCtor s junk i).Pre :=
  pre_bind (pre_newFilled (pre_bind (pre_act trivial) fun _ => trivial)) fun _ => pre_bind (pre_act trivial) fun _ => trivial

theorem pre_prpNew (s : Bytes → Bytes) (junk r : Bytes) : (prpNew s junk r).Pre :=
  pre_newFilled (pre_within (pre_mk trivial) fun _ => pre_bind (pre_act trivial) fun _ => trivial)

theorem pre_hmac (f : Bytes → Bytes) (i : Nat) : (hmac f i).Pre :=
  pre_bind (pre_act trivial) fun _ => pre_bind (pre_act trivial) fun _ => pre_bind (pre_act trivial) fun _ => pre_bind (pre_act trivial) fun _ => trivial

theorem pre_derive (g : Bytes → Bytes) (i : Nat) : (derive g i).Pre := pre_bind (pre_act trivial) fun _ => pre_bind (pre_act trivial) fun _ => trivial

theorem pre_deriveStatic (b : Bool) (g : Bytes → Bytes) (i : Nat) : (deriveStatic b g i).Pre := fun e => by
  cases e with
  | true => exact trivial
  | false =>
    refine pre_within (pre_mk trivial) fun j => pre_bind (pre_act trivial) fun _ => ?_
    split
    · exact trivial
    · exact pre_bind (pre_act trivial) fun _ => trivial

theorem pre_deriveKey (K : Nat) (junk : Bytes) (g : Bytes → Bytes) (i : Nat) : (deriveKey K junk g i).Pre := pre_newFilled (pre_derive g i)

theorem pre_deriveKeyStatic (K : Nat) (junk : Bytes) (g : Bytes → Bytes) (i : Nat) : (deriveKeyStatic K junk g i).Pre := pre_newFilled (pre_deriveStatic _ g i)

theorem pre_cutKeys (K : Nat) (buf : Bytes) : ∀ n t, (cutKeys K buf n t).Pre := by
  intro n
  induction n with
  | zero => intro t; exact trivial
  | succ n ih =>
    intro t
    unfold cutKeys
    split
    · exact trivial
    · next h => exact pre_bind (pre_mk (Nat.le_of_not_lt h)) fun _ => pre_bind (ih _) fun _ => trivial

theorem pre_cutAll (K : Nat) (junk : Bytes) (n : Nat) (r : Res Bytes) : (cutAll K junk n r).Pre := by
  cases r with
  | ok buf => exact pre_within (pre_mk trivial) fun _ => pre_cutKeys K buf n 0
  | exc e => exact pre_then (pre_act trivial) fun _ => trivial
  | ub => exact trivial

theorem pre_deriveKeys (K : Nat) (junk : Bytes) (g : Bytes → Bytes) (n i : Nat) : (deriveKeys K junk g n i).Pre := by
  unfold deriveKeys
  split
  · exact trivial
  · exact pre_then (pre_derive g i) (pre_cutAll K junk n)

theorem pre_deriveKeysStatic (K : Nat) (junk : Bytes) (g : Bytes → Bytes) (n i : Nat) : (deriveKeysStatic K junk g n i).Pre := fun e => by
  cases e with
  | true => exact trivial
  | false =>
    simp only [Bool.false_eq_true, if_false]
    split
    · exact trivial
    · exact pre_then (pre_deriveStatic false g i) (pre_cutAll K junk n)

theorem pre_duplicate (i : Nat) : (duplicate i).Pre :=
  pre_bind (pre_act trivial) fun v => pre_bind (pre_act trivial) fun _ => by
    split
    · exact trivial
    · next h => exact pre_within (pre_mk (by simp only [Op.pre, List.length_take]; omega)) fun j => pre_plainCtor j

theorem pre_readPlain {N : Nat} {b : Bytes} (h : N ≤ b.length) : (readPlain N b).Pre := pre_within (pre_mk h) fun _ => pre_mk trivial

theorem pre_readPrf {b : Bytes} (h : 32 ≤ b.length) : (readPrf b).Pre := pre_within (pre_mk h) fun _ => pre_hmacCtor _

theorem pre_hmacs (i : Nat) : ∀ fs, (hmacs i fs).Pre := by
  intro fs
  induction fs with
  | nil => exact trivial
  | cons f fs ih => exact pre_bind (pre_hmac f i) fun _ => pre_bind ih fun _ => trivial

theorem pre_tdpGenerate (fs : List (Bytes → Bytes)) (i : Nat) : (tdpGenerate fs i).Pre := pre_within (pre_hmacCtor i) fun j => pre_hmacs j fs

theorem pre_onOk {α β : Type} {f : α → P β} (hf : ∀ x, (f x).Pre) : ∀ r, (onOk f r).Pre := fun r => by
  cases r with
  | ok x => exact hf x
  | exc e => exact trivial
  | ub => exact trivial

theorem pre_op {α : Type} {N : Nat} {o : Op} {k : Nat → Res Bytes → P α} (h : o.pre N) (hk : ∀ n r, (k n r).Pre) : (P.op N o k).Pre := ⟨h, hk⟩

theorem pre_prfKey {N : Nat} {f : Bytes → Bytes} (hf : ∀ v, N ≤ (f v).length) (i : Nat) : (prfKey N f i).Pre := by
  have h : prfKey N f i = (P.op 32 (.unlock i) fun _ r => onOk (fun _ => P.op 32 (.readData i) fun _ r => onOk (fun v => P.op 32 (.readData i) fun _ r => onOk
      (fun _ => P.op 32 (.lock i) fun _ r => onOk (fun _ => mk N (.newFrom (some (f v)))) r) r) r) r) := by
    simp only [prfKey, hmac, bind, act, P.thenRes]
    congr 1; funext n r
    cases r <;> first | rfl | skip
    simp only [onOk, P.thenRes]
    congr 1; funext n r
    cases r <;> first | rfl | skip
    simp only [onOk, P.thenRes]
    congr 1; funext n r
    cases r <;> first | rfl | skip
    simp only [onOk, P.thenRes]
    congr 1; funext n r
    cases r <;> rfl
  rw [h]
  refine pre_op trivial fun _ r => pre_onOk (fun _ => ?_) r
  refine pre_op trivial fun _ r => pre_onOk (fun v => ?_) r
  refine pre_op trivial fun _ r => pre_onOk (fun _ => ?_) r
  refine pre_op trivial fun _ r => pre_onOk (fun _ => ?_) r
  exact pre_mk (hf v)

theorem pre_wrapperCtor {f1 f2 : Bytes → Bytes} (h1 : ∀ v, 32 ≤ (f1 v).length) (h2 : ∀ v, 32 ≤ (f2 v).length) (r1 r2 junk : Bytes) (i : Nat) :
    (wrapperCtor f1 f2 r1 r2 junk i).Pre :=
  pre_bind (pre_mk trivial) fun j1 => pre_bind (pre_mk trivial) fun j2 => pre_then
    (pre_within (pre_hmacCtor i) fun _ => pre_bind (pre_within (pre_prfKey h1 _) fun _ => pre_within (pre_hmacCtor _) fun _ => pre_act trivial) fun _ =>
      pre_bind (pre_within (pre_prfKey h2 _) fun _ => pre_act trivial) fun _ => trivial)
    fun r => by
      cases r with
      | ok x => exact trivial
      | exc e => exact pre_bind (pre_act trivial) fun _ => pre_bind (pre_act trivial) fun _ => trivial
      | ub => exact trivial

theorem pre_chain (junk : Bytes) (s : Nat) : ∀ gs, (chain junk s gs).Pre := by
  intro gs
  induction gs with
  | nil => exact trivial
  | cons g gs ih => exact pre_bind (pre_within (pre_deriveKeyStatic 32 junk g s) fun _ => pre_act trivial) fun _ => ih

theorem pre_leaf (junk : Bytes) (last : Bytes → Bytes) (i : Nat) (gs : List (Bytes → Bytes)) : (leaf junk last i gs).Pre := by
  cases gs with
  | nil => exact pre_derive last i
  | cons g gs => exact pre_within (pre_deriveKey 32 junk g i) fun s => pre_bind (pre_chain junk s gs) fun _ => pre_deriveStatic false last s

theorem pre_call {call : Nat → Bytes → Option Exc} {x : Nat} {b : Bytes} {q : P Unit} (hq : q.Pre) :
    (match call x b with | some e => throw e | none => q : P Unit).Pre := by
  cases call x b with
  | none => exact hq
  | some e => exact trivial

theorem pre_range (T : Tree) (junk : Bytes) (call : Nat → Bytes → Option Exc) : ∀ h i off min max, (range T junk call h i off min max).Pre := by
  intro h
  induction h with
  | zero =>
    intro i off min max
    unfold range
    refine pre_bind (pre_derive _ i) fun b => pre_call ?_
    split
    · exact pre_bind (pre_derive _ i) fun b => pre_call trivial
    · exact trivial
  | succ h ih =>
    intro i off min max
    unfold range
    refine pre_bind ?_ fun _ => ?_
    · split
      · exact pre_within (pre_deriveKey _ _ _ i) fun s => pre_within (pre_plainCtor s) fun p => ih _ _ _ _
      · exact trivial
    · split
      · exact pre_within (pre_deriveKey _ _ _ i) fun s => pre_within (pre_plainCtor s) fun p => ih _ _ _ _
      · exact trivial

theorem pre_genSide {junk : Bytes} {g : Bytes → Bytes} {whole : Bool} {height i : Nat} {below : Nat → P (List Nat)} (hb : ∀ p, (below p).Pre) :
    (genSide junk g whole height i below).Pre := pre_within (pre_deriveKey _ _ _ i) fun s => by
  split
  · exact pre_bind (pre_elemCtor _ _ _) fun _ => trivial
  · exact pre_within (pre_plainCtor s) hb

theorem pre_gen (T : Tree) (junk : Bytes) : ∀ h i smin smax min max, (gen T junk h i smin smax min max).Pre := by
  intro h
  induction h with
  | zero => intro i smin smax min max; exact pre_bind (pre_derive _ i) fun _ => trivial
  | succ h ih =>
    intro i smin smax min max
    unfold gen
    refine pre_bind ?_ fun l => pre_bind ?_ fun r => trivial
    · split
      · exact pre_genSide fun p => ih _ _ _ _ _
      · exact trivial
    · split
      · exact pre_genSide fun p => ih _ _ _ _ _
      · exact trivial

/-! ## Lost buffers -/

/-- The buffer `c` is not released, and no key owns it. -/
structure Lost (st : St) (c : Nat) (cell : Cell) : Prop where
  here : st.heap[c]? = some cell
  unreleased : cell.frees = 0
  unowned : ∀ j o, st.obj j = some o → o.content ≠ some c

theorem lost_protect {st st' : St} {c d : Nat} {cell : Cell} {p : Prot} (h : Lost st c cell) (hd : d ≠ c) (hs : st.protect d p = .ok st') : Lost st' c cell := by
  unfold St.protect at hs
  split at hs
  · split at hs
    · cases hs
      exact ⟨by rw [List.getElem?_set_ne hd]; exact h.here, h.unreleased, h.unowned⟩
    · cases hs
  · cases hs

theorem lost_free {st st' : St} {c d : Nat} {cell : Cell} (h : Lost st c cell) (hd : d ≠ c) (hs : st.free d = .ok st') : Lost st' c cell := by
  unfold St.free at hs
  split at hs
  · split at hs
    · cases hs
      exact ⟨by rw [List.getElem?_set_ne hd]; exact h.here, h.unreleased, h.unowned⟩
    · cases hs
  · cases hs

theorem lost_setObj {st : St} {c i : Nat} {cell : Cell} {x : Option Obj} (h : Lost st c cell) (hx : ∀ o, x = some o → o.content ≠ some c) :
    Lost (st.setObj i x) c cell := by
  refine ⟨h.here, h.unreleased, fun j o ho => ?_⟩
  by_cases hi : i < st.objs.length
  · rw [obj_setObj _ _ _ _ hi] at ho
    split at ho
    · exact hx o ho
    · exact h.unowned j o ho
  · have : (st.setObj i x).obj j = st.obj j := by
      unfold St.setObj St.obj
      rw [List.set_eq_of_length_le (by omega)]
    rw [this] at ho
    exact h.unowned j o ho

theorem lost_pushObj {st : St} {c : Nat} {cell : Cell} {o : Obj} (h : Lost st c cell) (ho : o.content ≠ some c) : Lost (st.pushObj o) c cell := by
  refine ⟨h.here, h.unreleased, fun j o' ho' => ?_⟩
  rw [obj_pushObj] at ho'
  split at ho'
  · cases ho'; exact ho
  · exact h.unowned j o' ho'

theorem lost_alloc {st : St} {c : Nat} {cell : Cell} (h : Lost st c cell) (d : Bytes) (p : Prot) : Lost (st.alloc d p) c cell := by
  have hlt := (List.getElem?_eq_some_iff.1 h.here).1
  exact ⟨by unfold St.alloc; rw [List.getElem?_append_left hlt]; exact h.here, h.unreleased, h.unowned⟩

theorem lost_fresh {st : St} {c : Nat} {cell : Cell} (h : Lost st c cell) : ∀ b, (⟨some st.heap.length, b⟩ : Obj).content ≠ some c := by
  have hlt := (List.getElem?_eq_some_iff.1 h.here).1
  intro b hb
  cases hb
  omega

theorem lost_lockObj {st st' : St} {c i : Nat} {cell : Cell} {o : Obj} {ml : Bool} (h : Lost st c cell) (ho : st.obj i = some o) (hs : lockObj ml st i o = .ok st') :
    Lost st' c cell := by
  unfold lockObj at hs
  cases ml with
  | false => cases hs; exact h
  | true =>
    simp only [if_true] at hs
    cases hcn : o.content with
    | none => rw [hcn] at hs; cases hs; exact h
    | some d =>
      rw [hcn] at hs
      simp only at hs
      have hd := h.unowned i o ho
      split at hs
      · cases hs; exact h
      · cases hp : st.protect d .noaccess with
        | ok s1 =>
          rw [hp] at hs
          cases hs
          exact lost_setObj (lost_protect h (fun e => hd (by rw [hcn, e])) hp) fun o' ho' => by cases ho'; rw [← hcn]; exact hd
        | exc e => rw [hp] at hs; cases hs
        | ub => rw [hp] at hs; cases hs

theorem lost_unlockObj {st st' : St} {c i : Nat} {cell : Cell} {o : Obj} {ml : Bool} (h : Lost st c cell) (ho : st.obj i = some o)
    (hs : unlockObj ml st i o = .ok st') : Lost st' c cell := by
  unfold unlockObj at hs
  cases ml with
  | false => cases hs; exact h
  | true =>
    simp only [if_true] at hs
    cases hcn : o.content with
    | none => rw [hcn] at hs; cases hs; exact h
    | some d =>
      rw [hcn] at hs
      simp only at hs
      have hd := h.unowned i o ho
      split at hs
      · cases hp : st.protect d .ro with
        | ok s1 =>
          rw [hp] at hs
          cases hs
          exact lost_setObj (lost_protect h (fun e => hd (by rw [hcn, e])) hp) fun o' ho' => by cases ho'; rw [← hcn]; exact hd
        | exc e => rw [hp] at hs; cases hs
        | ub => rw [hp] at hs; cases hs
      · cases hs; exact h

theorem lost_fin {st : St} {c : Nat} {cell : Cell} {x : Res St} (h : Lost st c cell) (hx : ∀ s, x = .ok s → Lost s c cell) : Lost (fin st x).1 c cell := by
  cases x with
  | ok s => exact hx s rfl
  | exc e => exact h
  | ub => exact h

/-- No operation finds a lost buffer again. -/
theorem lost_step {N : Nat} {ml : Bool} {st st' : St} {c : Nat} {cell : Cell} {op : Op} {r : Res Bytes} (h : Lost st c cell) (hs : step N ml st op = some (st', r)) :
    Lost st' c cell := by
  have fresh : ∀ d p b, Lost ((st.alloc d p).pushObj ⟨some st.heap.length, b⟩) c cell := fun d p b => lost_pushObj (lost_alloc h d p) (lost_fresh h b)
  cases op with
  | newRandom r junk => cases hs; exact fresh _ _ _
  | newFrom b =>
    cases b with
    | none => cases hs; exact h
    | some b =>
      simp only [step] at hs
      split at hs
      · cases hs; exact h
      · cases hs; exact fresh _ _ _
  | newCallback f junk =>
    cases f with
    | none => cases hs; exact lost_alloc h _ _
    | some d => cases hs; exact fresh _ _ _
  | moveCtor s =>
    simp only [step] at hs
    cases ho : st.obj s with
    | none => rw [ho] at hs; cases hs
    | some o =>
      rw [ho] at hs
      cases hs
      exact lost_pushObj (lost_setObj h fun o' ho' => by cases ho'; simp) (h.unowned s o ho)
  | moveAssign d s =>
    simp only [step] at hs
    cases hod : st.obj d with
    | none => rw [hod] at hs; cases hs
    | some od =>
      cases hos : st.obj s with
      | none => rw [hod, hos] at hs; cases hs
      | some os =>
        rw [hod, hos] at hs
        simp only at hs
        split at hs
        · cases hs; exact h
        · have hs' := (Prod.mk.inj (Option.some.inj hs)).1
          rw [← hs']
          refine lost_fin h fun s1 h1 => ?_
          cases hcn : od.content with
          | none =>
            rw [hcn] at h1
            cases h1
            exact lost_setObj (lost_setObj h fun o' ho' => by cases ho'; exact h.unowned s os hos) fun o' ho' => by cases ho'; simp
          | some e =>
            rw [hcn] at h1
            simp only at h1
            cases hf : st.free e with
            | ok s2 =>
              rw [hf] at h1
              cases h1
              exact lost_setObj (lost_setObj (lost_free h (fun e' => h.unowned d od hod (by rw [hcn, e'])) hf) fun o' ho' => by
                cases ho'; exact h.unowned s os hos) fun o' ho' => by cases ho'; simp
            | exc _ => rw [hf] at h1; cases h1
            | ub => rw [hf] at h1; cases h1
  | erase i =>
    simp only [step] at hs
    cases ho : st.obj i with
    | none => rw [ho] at hs; cases hs
    | some o =>
      rw [ho] at hs
      simp only at hs
      cases hcn : o.content with
      | none => rw [hcn] at hs; cases hs; exact h
      | some e =>
        rw [hcn] at hs
        have hs' := (Prod.mk.inj (Option.some.inj hs)).1
        rw [← hs']
        refine lost_fin h fun s1 h1 => ?_
        cases hf : st.free e with
        | ok s2 =>
          rw [hf] at h1
          cases h1
          exact lost_setObj (lost_free h (fun e' => h.unowned i o ho (by rw [hcn, e'])) hf) fun o' ho' => by cases ho'; simp
        | exc _ => rw [hf] at h1; cases h1
        | ub => rw [hf] at h1; cases h1
  | destroy i =>
    simp only [step] at hs
    cases ho : st.obj i with
    | none => rw [ho] at hs; cases hs
    | some o =>
      rw [ho] at hs
      simp only at hs
      cases hcn : o.content with
      | none => rw [hcn] at hs; cases hs; exact lost_setObj h fun o' ho' => by cases ho'
      | some e =>
        rw [hcn] at hs
        have hs' := (Prod.mk.inj (Option.some.inj hs)).1
        rw [← hs']
        refine lost_fin h fun s1 h1 => ?_
        cases hf : st.free e with
        | ok s2 =>
          rw [hf] at h1
          cases h1
          exact lost_setObj (lost_free h (fun e' => h.unowned i o ho (by rw [hcn, e'])) hf) fun o' ho' => by cases ho'
        | exc _ => rw [hf] at h1; cases h1
        | ub => rw [hf] at h1; cases h1
  | lock i =>
    simp only [step] at hs
    cases ho : st.obj i with
    | none => rw [ho] at hs; cases hs
    | some o =>
      rw [ho] at hs
      have hs' := (Prod.mk.inj (Option.some.inj hs)).1
      rw [← hs']
      exact lost_fin h fun s1 h1 => lost_lockObj h ho h1
  | unlock i =>
    simp only [step] at hs
    cases ho : st.obj i with
    | none => rw [ho] at hs; cases hs
    | some o =>
      rw [ho] at hs
      have hs' := (Prod.mk.inj (Option.some.inj hs)).1
      rw [← hs']
      exact lost_fin h fun s1 h1 => lost_unlockObj h ho h1
  | readData i =>
    simp only [step] at hs
    cases ho : st.obj i with
    | none => rw [ho] at hs; cases hs
    | some o => rw [ho] at hs; cases hs; exact h
  | readUnlock i =>
    simp only [step] at hs
    cases ho : st.obj i with
    | none => rw [ho] at hs; cases hs
    | some o =>
      rw [ho] at hs
      simp only [Option.map_some, Option.some.injEq] at hs
      cases hcn : o.content with
      | none => rw [hcn] at hs; cases hs; exact h
      | some d =>
        rw [hcn] at hs
        simp only at hs
        cases hu : unlockObj ml st i o with
        | ok s1 => rw [hu] at hs; cases hs; exact lost_unlockObj h ho hu
        | exc e => rw [hu] at hs; cases hs; exact h
        | ub => rw [hu] at hs; cases hs; exact h
  | serialize i =>
    simp only [step] at hs
    cases ho : st.obj i with
    | none => rw [ho] at hs; cases hs
    | some o => rw [ho] at hs; cases hs; exact h

theorem lost_run {α : Type} {ml : Bool} {c : Nat} {cell : Cell} (p : P α) : ∀ {st : St}, Lost st c cell → Lost (p.run ml st).1 c cell := by
  induction p with
  | ret r => intro st h; exact h
  | empty i k ih =>
    intro st h
    unfold P.run
    cases st.obj i with
    | none => exact h
    | some o => exact ih _ h
  | op N o k ih =>
    intro st h
    unfold P.run
    cases hs : step N ml st o with
    | none => exact h
    | some x => exact ih _ _ (lost_step h hs)

/-- The last buffer is lost when it has just been allocated without an owner. -/
theorem lost_new {st : St} (hi : Inv true st) (d : Bytes) (p : Prot) : Lost (st.alloc d p) st.heap.length ⟨d, p, 0⟩ := by
  refine ⟨by simp [St.alloc], rfl, fun j o ho hcn => ?_⟩
  obtain ⟨cell, hcell, -⟩ := hi.own j o _ ho hcn
  have := (List.getElem?_eq_some_iff.1 hcell).1
  omega

theorem view_alloc {st : St} (hi : Inv true st) (d : Bytes) (p : Prot) (j : Nat) : view (st.alloc d p) j = view st j := by
  unfold view
  have : (st.alloc d p).obj j = st.obj j := rfl
  rw [this]
  cases ho : st.obj j with
  | none => rfl
  | some o =>
    simp only [Option.map_some, Option.some.injEq]
    unfold absObj
    cases hcn : o.content with
    | none => rfl
    | some c =>
      obtain ⟨cell, hcell, -⟩ := hi.own j o c ho hcn
      have := (List.getElem?_eq_some_iff.1 hcell).1
      simp only [St.alloc, Option.bind_some, List.getElem?_append_left this]

end Verif.Key.Life
