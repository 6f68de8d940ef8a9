import Verif.SetHash.Spec
import Mathlib.Algebra.Group.Subgroup.Lattice
import Mathlib.Data.ZMod.Defs
import Mathlib.Tactic.Abel

/-!
# Set hash: theorems (C33–C36)
-/

namespace Verif.SetHash

open Verif Verif.Mac

section
variable {A : Type} [AddCommGroup A]

/-- The point of an element: of a string its hash mapped to the curve, of an imported array the point it encodes. -/
def point (C : Curve A) (H : Bytes → Bytes) : Bytes ⊕ Bytes → A
  | .inl x => C.fromUniform ((H x).take 32)
  | .inr b => (C.decode b).getD 0

/-- The sum of the points of a multiset. -/
noncomputable def val (C : Curve A) (H : Bytes → Bytes) (m : Spec.MSet) : A := m.sum fun s n => n • point C H s

variable {C : Curve A} {H : Bytes → Bytes}

theorem val_add (a b : Spec.MSet) : val C H (a + b) = val C H a + val C H b :=
  Finsupp.sum_add_index' (fun _ => zero_zsmul _) (fun _ _ _ => add_zsmul _ _ _)

theorem val_sub (a b : Spec.MSet) : val C H (a - b) = val C H a - val C H b :=
  Finsupp.sum_sub_index (fun _ _ _ => (sub_zsmul _ _ _).trans (sub_eq_add_neg _ _).symm)

theorem val_zero : val C H 0 = 0 := Finsupp.sum_zero_index

theorem val_elt (x : Bytes) : val C H (Spec.elt x) = C.fromUniform ((H x).take 32) := by
  unfold val Spec.elt
  rw [Finsupp.sum_single_index (zero_zsmul _), one_zsmul]
  rfl

theorem genCurvePoint_eq (x : Bytes) : genCurvePoint C H x = .ok (C.enc (C.fromUniform ((H x).take 32))) := by
  simp [genCurvePoint, hashTrunc, hashBuf]

theorem edAdd_enc (hC : C.Ok) (r : Bytes) (a b : A) : edAdd C r (C.enc a) (C.enc b) = C.enc (a + b) := by
  simp [edAdd, hC.decode_enc]

theorem edSub_enc (hC : C.Ok) (r : Bytes) (a b : A) : edSub C r (C.enc a) (C.enc b) = C.enc (a - b) := by
  simp [edSub, hC.decode_enc]

theorem enc_inj (hC : C.Ok) {a b : A} (h : C.enc a = C.enc b) : a = b := by
  have := congrArg C.decode h
  rw [hC.decode_enc, hC.decode_enc] at this
  exact Option.some.inj this

/-- A state stands for a multiset. -/
def Rep (C : Curve A) (H : Bytes → Bytes) (s : Bytes) (m : Spec.MSet) : Prop := s = C.enc (val C H m) ∧ val C H m ∈ C.sub

theorem Rep.zero (hC : C.Ok) : Rep C H infinite 0 := by
  refine ⟨?_, ?_⟩
  · rw [val_zero, hC.enc_zero]
  · rw [val_zero]; exact C.sub.zero_mem

theorem Rep.add (hC : C.Ok) {s t : Bytes} {m n : Spec.MSet} (r : Bytes) (h : Rep C H s m) (k : Rep C H t n) :
    Rep C H (edAdd C r s t) (m + n) := by
  refine ⟨?_, ?_⟩
  · rw [h.1, k.1, edAdd_enc hC, val_add]
  · rw [val_add]; exact C.sub.add_mem h.2 k.2

theorem Rep.sub (hC : C.Ok) {s t : Bytes} {m n : Spec.MSet} (r : Bytes) (h : Rep C H s m) (k : Rep C H t n) :
    Rep C H (edSub C r s t) (m - n) := by
  refine ⟨?_, ?_⟩
  · rw [h.1, k.1, edSub_enc hC, val_sub]
  · rw [val_sub]; exact C.sub.sub_mem h.2 k.2

theorem Rep.elt (hC : C.Ok) (x : Bytes) : Rep C H (C.enc (C.fromUniform ((H x).take 32))) (Spec.elt x) := by
  refine ⟨?_, ?_⟩
  · rw [val_elt]
  · rw [val_elt]; exact hC.uniform_mem _

theorem foldElements_ok (hC : C.Ok) : ∀ (xs : List Bytes) (s : Bytes) (m : Spec.MSet), Rep C H s m →
    ∃ s', foldElements C H s xs = .ok s' ∧ Rep C H s' (m + Spec.ofList xs) := by
  intro xs
  induction xs with
  | nil =>
    intro s m h
    refine ⟨s, rfl, ?_⟩
    simpa [Spec.ofList] using h
  | cons x xs ih =>
    intro s m h
    obtain ⟨s', h1, h2⟩ := ih _ _ (Rep.add hC s h (Rep.elt hC x))
    refine ⟨s', ?_, ?_⟩
    · rw [foldElements, genCurvePoint_eq]; exact h1
    · have : m + Spec.ofList (x :: xs) = m + Spec.elt x + Spec.ofList xs := by
        simp [Spec.ofList, add_assoc]
      rw [this]; exact h2

theorem fromBytes_ok (hC : C.Ok) {b s : Bytes} (h : fromBytes C b = .ok s) : s = b ∧ Rep C H b (Spec.imported b) := by
  unfold fromBytes at h
  by_cases hb : b = infinite
  · subst hb
    rw [if_neg (by simp)] at h
    injection h with h
    refine ⟨h.symm, ?_⟩
    have : Spec.imported infinite = 0 := if_pos rfl
    rw [this]; exact Rep.zero hC
  · by_cases hv : C.isValid b = true
    · rw [if_neg (by simp [hv])] at h
      injection h with h
      obtain ⟨a, ha, _, rfl⟩ := (hC.valid_iff b).1 hv
      refine ⟨h.symm, ?_⟩
      have e : Spec.imported (C.enc a) = Finsupp.single (.inr (C.enc a)) 1 := if_neg hb
      have v : val C H (Finsupp.single (.inr (C.enc a)) 1) = a := by
        unfold val
        rw [Finsupp.sum_single_index (zero_zsmul _), one_zsmul]
        simp [point, hC.decode_enc]
      rw [e]
      exact ⟨by rw [v], by rw [v]; exact ha⟩
    · rw [if_pos ⟨hv, hb⟩] at h
      cases h

/-- The collection of states stands for the collection of multisets. -/
def RepAll (C : Curve A) (H : Bytes → Bytes) (l : List Bytes) (ms : List Spec.MSet) : Prop :=
  List.Forall₂ (Rep C H) l ms

theorem RepAll.get {l : List Bytes} {ms : List Spec.MSet} (h : RepAll C H l ms) {i : Nat} {s : Bytes}
    (hs : l[i]? = some s) : Rep C H s (ms.getD i 0) := by
  induction h generalizing i with
  | nil => simp at hs
  | cons hr _ ih =>
    cases i with
    | zero => simp at hs; subst hs; simpa using hr
    | succ i => simp at hs; simpa using ih hs

theorem RepAll.put {l : List Bytes} {ms : List Spec.MSet} (h : RepAll C H l ms) {i : Nat} {s : Bytes} {m : Spec.MSet}
    (hs : Rep C H s m) : RepAll C H (put l i s) (ms.set i m) := by
  induction h generalizing i with
  | nil => exact List.Forall₂.nil
  | cons hr ht ih =>
    cases i with
    | zero => exact List.Forall₂.cons hs ht
    | succ i => exact List.Forall₂.cons hr ih

theorem RepAll.snoc {l : List Bytes} {ms : List Spec.MSet} (h : RepAll C H l ms) {s : Bytes} {m : Spec.MSet}
    (hs : Rep C H s m) : RepAll C H (l ++ [s]) (ms ++ [m]) := by
  induction h with
  | nil => exact List.Forall₂.cons hs .nil
  | cons hr _ ih => exact List.Forall₂.cons hr ih

theorem step_ok (hC : C.Ok) {l : List Bytes} {ms : List Spec.MSet} (h : RepAll C H l ms) (c : Call)
    (r : Res (List Bytes)) (hr : step C H l c = some r) :
    (∃ b, c = .newBytes b ∧ C.isValid b = false ∧ b ≠ infinite ∧ r = .exc .invalidArgument) ∨
    ∃ l', r = .ok l' ∧ RepAll C H l' (Spec.step ms c) := by
  cases c with
  | new =>
    injection hr with hr
    exact .inr ⟨_, hr.symm, h.snoc (Rep.zero hC)⟩
  | newBytes b =>
    injection hr with hr
    cases hb : fromBytes C b with
    | ok s =>
      obtain ⟨rfl, h2⟩ := fromBytes_ok (H := H) hC hb
      rw [hb] at hr
      exact .inr ⟨_, hr.symm, h.snoc h2⟩
    | exc e =>
      left
      refine ⟨b, rfl, ?_⟩
      unfold fromBytes at hb
      by_cases hc : C.isValid b ≠ true ∧ b ≠ infinite
      · refine ⟨by simpa using hc.1, hc.2, ?_⟩
        rw [← hr, fromBytes, if_pos hc]; rfl
      · rw [if_neg hc] at hb; cases hb
    | ub =>
      unfold fromBytes at hb
      split at hb <;> cases hb
  | newVector xs =>
    injection hr with hr
    obtain ⟨s', h1, h2⟩ := foldElements_ok (H := H) hC xs infinite 0 (Rep.zero hC)
    rw [zero_add] at h2
    rw [fromVector, h1] at hr
    exact .inr ⟨_, hr.symm, h.snoc h2⟩
  | copy i =>
    cases hs : l[i]? with
    | none => simp [step, hs] at hr
    | some s =>
      simp only [step, hs, Option.map_some, Option.some.injEq] at hr
      exact .inr ⟨_, hr.symm, h.snoc (h.get hs)⟩
  | assign i j =>
    cases hs : l[i]? with
    | none => simp [step, hs] at hr
    | some s =>
      cases ht : l[j]? with
      | none => simp [step, ht, hs] at hr
      | some t =>
        simp only [step, hs, ht, Option.bind_eq_bind, Option.bind_some, Option.some.injEq] at hr
        exact .inr ⟨_, hr.symm, h.put (h.get ht)⟩
  | add i x =>
    cases hs : l[i]? with
    | none => simp [step, hs] at hr
    | some s =>
      simp only [step, hs, Option.map_some, Option.some.injEq, addElement, genCurvePoint_eq, Res.map_ok] at hr
      exact .inr ⟨_, hr.symm, h.put (Rep.add hC s (h.get hs) (Rep.elt hC x))⟩
  | remove i x =>
    cases hs : l[i]? with
    | none => simp [step, hs] at hr
    | some s =>
      simp only [step, hs, Option.map_some, Option.some.injEq, removeElement, genCurvePoint_eq, Res.map_ok] at hr
      exact .inr ⟨_, hr.symm, h.put (Rep.sub hC s (h.get hs) (Rep.elt hC x))⟩
  | addSet i j =>
    cases hs : l[i]? with
    | none => simp [step, hs] at hr
    | some s =>
      cases ht : l[j]? with
      | none => simp [step, ht, hs] at hr
      | some t =>
        simp only [step, hs, ht, Option.bind_eq_bind, Option.bind_some, Option.some.injEq] at hr
        exact .inr ⟨_, hr.symm, h.put (Rep.add hC s (h.get hs) (h.get ht))⟩
  | removeSet i j =>
    cases hs : l[i]? with
    | none => simp [step, hs] at hr
    | some s =>
      cases ht : l[j]? with
      | none => simp [step, ht, hs] at hr
      | some t =>
        simp only [step, hs, ht, Option.bind_eq_bind, Option.bind_some, Option.some.injEq] at hr
        exact .inr ⟨_, hr.symm, h.put (Rep.sub hC s (h.get hs) (h.get ht))⟩

theorem run_ok (hC : C.Ok) : ∀ (cs : List Call) {l : List Bytes} {ms : List Spec.MSet}, RepAll C H l ms →
    ∀ r, run C H l cs = some r →
    (∃ b, .newBytes b ∈ cs ∧ C.isValid b = false ∧ b ≠ infinite ∧ r = .exc .invalidArgument) ∨
    ∃ l', r = .ok l' ∧ RepAll C H l' (Spec.run ms cs) := by
  intro cs
  induction cs with
  | nil =>
    intro l ms h r hr
    injection hr with hr
    exact .inr ⟨l, hr.symm, h⟩
  | cons c cs ih =>
    intro l ms h r hr
    cases hs : step C H l c with
    | none => simp [run, hs] at hr
    | some r1 =>
      rcases step_ok hC h c r1 hs with ⟨b, rfl, h1, h2, rfl⟩ | ⟨l', rfl, h1⟩
      · left
        refine ⟨b, by simp, h1, h2, ?_⟩
        simpa [run, hs] using hr.symm
      · have hr' : run C H l' cs = some r := by simpa [run, hs] using hr
        rcases ih h1 r hr' with ⟨b, hb, rest⟩ | h2
        · exact .inl ⟨b, List.mem_cons_of_mem _ hb, rest⟩
        · exact .inr h2

end

/-! ## A concrete curve for the examples: the group of seven elements -/

/-- Points are encoded as the number plus one in the first byte; everything is in the subgroup. -/
def toyC : Curve (ZMod 7) where
  enc a := UInt8.ofNat (a.val + 1) :: List.replicate 31 0
  decode b := match b with
    | x :: r => if r = List.replicate 31 0 ∧ 1 ≤ x.toNat ∧ x.toNat ≤ 7 then some ((x.toNat - 1 : Nat) : ZMod 7) else none
    | [] => none
  sub := ⊤
  isValid b := match b with
    | x :: r => decide (r = List.replicate 31 0 ∧ 2 ≤ x.toNat ∧ x.toNat ≤ 7)
    | [] => false
  fromUniform h := ((h.headD 0).toNat : ZMod 7)

theorem toyC_ok : toyC.Ok where
  enc_length a := by simp [toyC]
  decode_enc a := by revert a; decide
  enc_zero := by rfl
  uniform_mem h := trivial
  valid_iff b := by
    constructor
    · intro h
      cases b with
      | nil => simp [toyC] at h
      | cons x r =>
        simp only [toyC, decide_eq_true_eq] at h
        obtain ⟨h1, h2, h3⟩ := h
        refine ⟨((x.toNat - 1 : Nat) : ZMod 7), trivial, ?_, ?_⟩
        · have : x.toNat = 2 ∨ x.toNat = 3 ∨ x.toNat = 4 ∨ x.toNat = 5 ∨ x.toNat = 6 ∨ x.toNat = 7 := by omega
          rcases this with h | h | h | h | h | h <;> rw [h] <;> decide
        · have : x.toNat = 2 ∨ x.toNat = 3 ∨ x.toNat = 4 ∨ x.toNat = 5 ∨ x.toNat = 6 ∨ x.toNat = 7 := by omega
          have hx : x = UInt8.ofNat x.toNat := by simp
          rcases this with h | h | h | h | h | h <;> rw [hx, h, h1] <;> rfl
    · rintro ⟨a, -, ha, rfl⟩
      revert a; decide

/-- A hash for the examples: the first byte of the message, then zeros. -/
def toyHash (m : Bytes) : Bytes := m.headD 0 :: List.replicate 63 0

/-! ## C33 -/

section
variable {A : Type} [AddCommGroup A] {C : Curve A} {H : Bytes → Bytes}

/-- Adding elements one by one with `add_element`. -/
def addAll (C : Curve A) (H : Bytes → Bytes) : Bytes → List Bytes → Res Bytes
  | st, [] => .ok st
  | st, x :: xs => addElement C H st x >>= fun s => addAll C H s xs

theorem ofList_perm {xs ys : List Bytes} (h : xs.Perm ys) : Spec.ofList xs = Spec.ofList ys :=
  (h.map Spec.elt).sum_eq

/-- **C33**: the vector constructor succeeds, gives the same state for every order of the elements, and equals adding the
elements one by one to an empty set hash. -/
theorem c33_order (hC : C.Ok) (xs : List Bytes) :
    (fromVector C H xs).isOk = true ∧ (∀ ys, xs.Perm ys → fromVector C H ys = fromVector C H xs) ∧
    addAll C H infinite xs = fromVector C H xs := by
  refine ⟨?_, ?_, ?_⟩
  · obtain ⟨s, h1, _⟩ := foldElements_ok (H := H) hC xs infinite 0 (Rep.zero hC)
    rw [fromVector, h1]; rfl
  · intro ys hp
    obtain ⟨s, h1, h2⟩ := foldElements_ok (H := H) hC xs infinite 0 (Rep.zero hC)
    obtain ⟨t, k1, k2⟩ := foldElements_ok (H := H) hC ys infinite 0 (Rep.zero hC)
    rw [fromVector, fromVector, h1, k1, h2.1, k2.1, ofList_perm hp]
  · unfold fromVector
    generalize infinite = st
    induction xs generalizing st with
    | nil => rfl
    | cons x xs ih =>
      simp only [addAll, addElement, foldElements, genCurvePoint_eq, Res.map_ok, Res.bind_ok]
      exact ih _

example : fromVector toyC toyHash [[5], [3, 1]] = .ok (2 :: List.replicate 31 0) ∧
    fromVector toyC toyHash [[3, 1], [5]] = .ok (2 :: List.replicate 31 0) :=
  ⟨by decide +kernel, ((c33_order toyC_ok [[5], [3, 1]]).2.1 _ (List.Perm.swap _ _ _)).trans (by decide +kernel)⟩

/-! ## C34, C35 -/

/-- **C34/C35**: after any program, each object is the encoding of the sum of the points of its multiset, where
`add_element`, `remove_element`, `add_set`, `remove_set`, copies and imports act on multisets as in `Spec` (also when the
two operands are the same object); no call has undefined behaviour, and the only exception is `invalid_argument`, for
importing bytes that are not a valid point. -/
theorem c35_history (hC : C.Ok) (cs : List Call) (r : Res (List Bytes)) (hr : run C H [] cs = some r) :
    (∃ b, .newBytes b ∈ cs ∧ C.isValid b = false ∧ b ≠ infinite ∧ r = .exc .invalidArgument) ∨
    ∃ l, r = .ok l ∧ l = (Spec.run [] cs).map fun m => C.enc (val C H m) := by
  rcases run_ok hC cs (l := []) (ms := []) .nil r hr with h | ⟨l, h1, h2⟩
  · exact .inl h
  · refine .inr ⟨l, h1, ?_⟩
    clear h1 hr
    revert h2
    generalize Spec.run [] cs = ms
    intro h2
    induction h2 with
    | nil => rfl
    | cons h _ ih => rw [List.map_cons, ih, h.1]

/-- The multiset of object `i` after a program. -/
noncomputable def msetOf (cs : List Call) (i : Nat) : Spec.MSet := (Spec.run [] cs).getD i 0

theorem Spec.getD_set {l : List Spec.MSet} {i j : Nat} {m : Spec.MSet} (hi : i < l.length) :
    (l.set i m).getD j 0 = if i = j then m else l.getD j 0 := by
  simp only [List.getD_eq_getElem?_getD, List.getElem?_set]
  split
  · subst_vars; simp
  · rfl

/-- **C34**: the state depends only on the signed multiplicities: equal multisets (possibly in two different programs) give
equal states; conversely equal states mean that the two sums of points are equal. -/
theorem c34_multiplicity (hC : C.Ok) (cs ds : List Call) (l k : List Bytes) (hl : run C H [] cs = some (.ok l))
    (hk : run C H [] ds = some (.ok k)) (i j : Nat) (s t : Bytes) (hs : l[i]? = some s) (ht : k[j]? = some t) :
    (msetOf cs i = msetOf ds j → s = t) ∧ (s = t ↔ val C H (msetOf cs i) = val C H (msetOf ds j)) ∧
    (equal s t = true ↔ s = t) := by
  have h1 : RepAll C H l (Spec.run [] cs) := by
    rcases run_ok hC cs (l := []) (ms := []) .nil _ hl with ⟨_, _, _, _, h⟩ | ⟨l', h, h2⟩
    · cases h
    · cases h; exact h2
  have h2 : RepAll C H k (Spec.run [] ds) := by
    rcases run_ok hC ds (l := []) (ms := []) .nil _ hk with ⟨_, _, _, _, h⟩ | ⟨l', h, h2⟩
    · cases h
    · cases h; exact h2
  have e1 : s = C.enc (val C H (msetOf cs i)) := (h1.get hs).1
  have e2 : t = C.enc (val C H (msetOf ds j)) := (h2.get ht).1
  refine ⟨fun h => by rw [e1, e2, h], ⟨fun h => enc_inj hC (by rw [← e1, ← e2, h]), fun h => by rw [e1, e2, h]⟩, ?_⟩
  simp [equal]

/-- Calls that change object `i` only by adding to it or removing from it, and do not read it into another object (nor
into itself). -/
def Indep (i : Nat) : Call → Prop
  | .copy j => j ≠ i
  | .assign j k => j ≠ i ∧ k ≠ i
  | .addSet _ k | .removeSet _ k => k ≠ i
  | _ => True

theorem spec_shift (i : Nat) (d : Spec.MSet) : ∀ (cs : List Call), (∀ c ∈ cs, Indep i c) → ∀ ms : List Spec.MSet, i < ms.length →
    i < (Spec.run ms cs).length ∧
    Spec.run (ms.set i (ms.getD i 0 + d)) cs = (Spec.run ms cs).set i ((Spec.run ms cs).getD i 0 + d) := by
  intro cs
  induction cs with
  | nil => intro _ ms hi; exact ⟨hi, rfl⟩
  | cons c cs ih =>
    intro hc ms hi
    have hcs := fun x hx => hc x (List.mem_cons_of_mem _ hx)
    have key : i < (Spec.step ms c).length ∧
        Spec.step (ms.set i (ms.getD i 0 + d)) c = (Spec.step ms c).set i ((Spec.step ms c).getD i 0 + d) := by
      have hci := hc c (by simp)
      have snoc : ∀ m : Spec.MSet, i < (ms ++ [m]).length ∧ ms.set i (ms.getD i 0 + d) ++ [m] =
          (ms ++ [m]).set i ((ms ++ [m]).getD i 0 + d) := by
        intro m
        refine ⟨by simp; omega, ?_⟩
        rw [List.set_append_left _ _ hi]
        congr 3
        simp [List.getD_eq_getElem?_getD, List.getElem?_append_left hi]
      have upd : ∀ (j : Nat) (f g : Spec.MSet → Spec.MSet), (j = i → f = g ∧ ∀ m, f (m + d) = f m + d) →
          (j ≠ i → f = g) →
          i < (ms.set j (f (ms.getD j 0))).length ∧
          (ms.set i (ms.getD i 0 + d)).set j (g ((ms.set i (ms.getD i 0 + d)).getD j 0)) =
            (ms.set j (f (ms.getD j 0))).set i ((ms.set j (f (ms.getD j 0))).getD i 0 + d) := by
        intro j f g h1 h2
        refine ⟨by simpa using hi, ?_⟩
        by_cases hj : j = i
        · subst hj
          obtain ⟨rfl, h⟩ := h1 rfl
          rw [Spec.getD_set hi, if_pos rfl, h, List.set_set, List.set_set, Spec.getD_set hi, if_pos rfl]
        · have := h2 hj
          subst this
          rw [Spec.getD_set hi, if_neg (Ne.symm hj), List.set_comm _ _ (Ne.symm hj)]
          congr 2
          simp [List.getD_eq_getElem?_getD, hj]
      have other : ∀ k, k ≠ i → (ms.set i (ms.getD i 0 + d)).getD k 0 = ms.getD k 0 := by
        intro k hk
        rw [Spec.getD_set hi, if_neg (Ne.symm hk)]
      cases c with
      | new => exact snoc 0
      | newBytes b => exact snoc _
      | newVector xs => exact snoc _
      | copy j =>
        simp only [Spec.step]
        rw [other j hci]; exact snoc _
      | assign j k =>
        simp only [Spec.step]
        have := upd j (fun _ => ms.getD k 0) (fun _ => ms.getD k 0) (fun h => absurd h hci.1) (fun _ => rfl)
        rw [other k hci.2]; exact this
      | add j x =>
        exact upd j (fun m => m + Spec.elt x) _ (fun _ => ⟨rfl, fun m => by abel⟩) (fun _ => rfl)
      | remove j x =>
        exact upd j (fun m => m - Spec.elt x) _ (fun _ => ⟨rfl, fun m => by abel⟩) (fun _ => rfl)
      | addSet j k =>
        simp only [Spec.step]
        rw [other k hci]
        exact upd j (fun m => m + ms.getD k 0) _ (fun _ => ⟨rfl, fun m => by abel⟩) (fun _ => rfl)
      | removeSet j k =>
        simp only [Spec.step]
        rw [other k hci]
        exact upd j (fun m => m - ms.getD k 0) _ (fun _ => ⟨rfl, fun m => by abel⟩) (fun _ => rfl)
    have := ih hcs (Spec.step ms c) key.1
    refine ⟨this.1, ?_⟩
    show Spec.run (Spec.step _ c) cs = _
    rw [key.2]; exact this.2

theorem Spec.run_append (ms : List Spec.MSet) (a b : List Call) : Spec.run ms (a ++ b) = Spec.run (Spec.run ms a) b :=
  List.foldl_append

/-- **C34**: `remove_element(x)` after `add_element(x)` on the same object, with any calls in between that do not copy that
object elsewhere, leaves every object as if both had not happened. -/
theorem c34_undo (hC : C.Ok) (pre mid : List Call) (i : Nat) (x : Bytes) (hmid : ∀ c ∈ mid, Indep i c)
    (hi : i < (Spec.run [] pre).length) (l k : List Bytes)
    (hl : run C H [] (pre ++ .add i x :: mid ++ [.remove i x]) = some (.ok l))
    (hk : run C H [] (pre ++ mid) = some (.ok k)) : l = k := by
  have e1 : l = (Spec.run [] (pre ++ .add i x :: mid ++ [.remove i x])).map fun m => C.enc (val C H m) := by
    rcases c35_history hC _ _ hl with ⟨_, _, _, _, h⟩ | ⟨_, h, h2⟩
    · cases h
    · cases h; exact h2
  have e2 : k = (Spec.run [] (pre ++ mid)).map fun m => C.enc (val C H m) := by
    rcases c35_history hC _ _ hk with ⟨_, _, _, _, h⟩ | ⟨_, h, h2⟩
    · cases h
    · cases h; exact h2
  rw [e1, e2]
  congr 1
  rw [Spec.run_append, Spec.run_append, Spec.run_append]
  show Spec.step (Spec.run (Spec.step (Spec.run [] pre) (.add i x)) mid) (.remove i x) = _
  obtain ⟨h1, h2⟩ := spec_shift i (Spec.elt x) mid hmid (Spec.run [] pre) hi
  simp only [Spec.step]
  rw [h2, List.set_set, Spec.getD_set h1, if_pos rfl, add_sub_cancel_right]
  apply List.ext_getElem?
  intro j
  rw [List.getElem?_set]
  split
  · subst_vars; simp [h1, List.getD_eq_getElem?_getD]
  · rfl

example : run toyC toyHash [] [.new, .new, .add 1 [4], .add 0 [5], .add 0 [3], .addSet 0 1, .remove 0 [5]] =
      run toyC toyHash [] [.new, .new, .add 1 [4], .add 0 [3], .addSet 0 1] ∧
    run toyC toyHash [] [.new, .add 0 [5], .addSet 0 0] = some (.ok [4 :: List.replicate 31 0]) := by
  constructor <;> decide +kernel

example : run toyC toyHash [] [.new, .newBytes (9 :: List.replicate 31 0)] = some (.exc .invalidArgument) := by decide +kernel

/-! ## C36 -/

/-- **C36**: every reachable set hash (of 32 bytes) is accepted by the constructor from bytes and gives an equal object. -/
theorem c36_reimport (hC : C.Ok) (cs : List Call) (l : List Bytes) (hl : run C H [] cs = some (.ok l)) (i : Nat) (s : Bytes)
    (hs : l[i]? = some s) :
    s.length = 32 ∧ fromBytes C s = .ok s ∧ run C H [] (cs ++ [.newBytes s]) = some (.ok (l ++ [s])) := by
  have h1 : RepAll C H l (Spec.run [] cs) := by
    rcases run_ok hC cs (l := []) (ms := []) .nil _ hl with ⟨_, _, _, _, h⟩ | ⟨l', h, h2⟩
    · cases h
    · cases h; exact h2
  obtain ⟨e1, e2⟩ := h1.get hs
  have hf : fromBytes C s = .ok s := by
    unfold fromBytes
    rw [if_neg]
    rintro ⟨ha, hb⟩
    apply ha
    rw [hC.valid_iff]
    refine ⟨_, e2, ?_, e1⟩
    intro h0
    rw [h0, hC.enc_zero] at e1
    exact hb e1
  refine ⟨by rw [e1]; exact hC.enc_length _, hf, ?_⟩
  have key : ∀ (cs : List Call) (l0 : List Bytes), run C H l0 cs = some (.ok l) →
      run C H l0 (cs ++ [.newBytes s]) = some (.ok (l ++ [s])) := by
    intro cs
    induction cs with
    | nil =>
      intro l0 h
      injection h with h
      injection h with h
      subst h
      simp [run, step, hf]
    | cons c cs ih =>
      intro l0 h
      rw [List.cons_append]
      simp only [run] at h ⊢
      cases hs : step C H l0 c with
      | none => simp [hs] at h
      | some r =>
        cases r with
        | ok l' => simp only [hs, Option.bind_eq_bind, Option.bind_some] at h ⊢; exact ih _ h
        | exc e => simp [hs] at h
        | ub => simp [hs] at h
  exact key cs [] hl

example : ∃ l s, run toyC toyHash [] [.new, .add 0 [5], .remove 0 [5]] = some (.ok l) ∧ l[0]? = some s ∧ s = infinite :=
  ⟨[infinite], infinite, by decide +kernel, rfl, rfl⟩

end

end Verif.SetHash
