import Verif.SetHash.LemmasGame

/-! # Set hash: lemmas for C98, continued -/

namespace Verif.SetHash.Game

open Verif Verif.Avg

/-! ## The strings of a claim -/

/-- The strings in a multiset. -/
def SuppIn (S : List Bytes) (m : Spec.MSet) : Prop := ∀ x, m (.inl x) ≠ 0 → x ∈ S

theorem SuppIn.zero (S : List Bytes) : SuppIn S 0 := fun _ h => absurd rfl h

theorem SuppIn.add {S : List Bytes} {m n : Spec.MSet} (hm : SuppIn S m) (hn : SuppIn S n) : SuppIn S (m + n) := by
  intro x h
  by_cases h1 : m (.inl x) = 0
  · by_cases h2 : n (.inl x) = 0
    · exact absurd (by rw [Finsupp.add_apply, h1, h2, add_zero]) h
    · exact hn x h2
  · exact hm x h1

theorem SuppIn.sub {S : List Bytes} {m n : Spec.MSet} (hm : SuppIn S m) (hn : SuppIn S n) : SuppIn S (m - n) := by
  intro x h
  by_cases h1 : m (.inl x) = 0
  · by_cases h2 : n (.inl x) = 0
    · exact absurd (by rw [Finsupp.sub_apply, h1, h2, sub_zero]) h
    · exact hn x h2
  · exact hm x h1

theorem SuppIn.elt {S : List Bytes} {x : Bytes} (h : x ∈ S) : SuppIn S (Spec.elt x) := by
  intro y hy
  unfold Spec.elt at hy
  rw [Finsupp.single_apply] at hy
  by_cases c : (Sum.inl x : Bytes ⊕ Bytes) = .inl y
  · injection c with c; exact c ▸ h
  · rw [if_neg c] at hy; exact absurd rfl hy

theorem SuppIn.ofList {S : List Bytes} : ∀ {xs : List Bytes}, (∀ x ∈ xs, x ∈ S) → SuppIn S (Spec.ofList xs) := by
  intro xs
  induction xs with
  | nil => intro _; exact SuppIn.zero S
  | cons x xs ih =>
    intro h
    have : Spec.ofList (x :: xs) = Spec.elt x + Spec.ofList xs := by simp [Spec.ofList]
    rw [this]
    exact (SuppIn.elt (h x (by simp))).add (ih fun y hy => h y (List.mem_cons_of_mem _ hy))

theorem SuppIn.imported (S : List Bytes) (b : Bytes) : SuppIn S (Spec.imported b) := by
  unfold Spec.imported
  split
  · exact SuppIn.zero S
  · intro x h
    rw [Finsupp.single_apply, if_neg (by simp)] at h
    exact absurd rfl h

theorem suppIn_get {S : List Bytes} {l : List Spec.MSet} (h : ∀ m ∈ l, SuppIn S m) (i : Nat) : SuppIn S (l.getD i 0) := by
  rw [List.getD_eq_getElem?_getD]
  cases hi : l[i]? with
  | none => exact SuppIn.zero S
  | some m => exact h m (List.mem_of_getElem? hi)

theorem suppIn_step {S : List Bytes} {l : List Spec.MSet} (h : ∀ m ∈ l, SuppIn S m) (c : Call) (hc : ∀ x ∈ callStrings c, x ∈ S) :
    ∀ m ∈ Spec.step l c, SuppIn S m := by
  have snoc : ∀ n, SuppIn S n → ∀ m ∈ l ++ [n], SuppIn S m := by
    intro n hn m hm
    rcases List.mem_append.1 hm with hm | hm
    · exact h m hm
    · rw [List.mem_singleton.1 hm]; exact hn
  have upd : ∀ i n, SuppIn S n → ∀ m ∈ l.set i n, SuppIn S m := by
    intro i n hn m hm
    rcases List.mem_or_eq_of_mem_set hm with hm | hm
    · exact h m hm
    · rw [hm]; exact hn
  cases c with
  | new => exact snoc _ (SuppIn.zero S)
  | newBytes b => exact snoc _ (SuppIn.imported S b)
  | newVector xs => exact snoc _ (SuppIn.ofList hc)
  | copy i => exact snoc _ (suppIn_get h i)
  | assign i j => exact upd _ _ (suppIn_get h j)
  | add i x => exact upd _ _ ((suppIn_get h i).add (SuppIn.elt (hc x (by simp [callStrings]))))
  | remove i x => exact upd _ _ ((suppIn_get h i).sub (SuppIn.elt (hc x (by simp [callStrings]))))
  | addSet i j => exact upd _ _ ((suppIn_get h i).add (suppIn_get h j))
  | removeSet i j => exact upd _ _ ((suppIn_get h i).sub (suppIn_get h j))

theorem suppIn_run {S : List Bytes} : ∀ (cs : List Call) {l : List Spec.MSet}, (∀ m ∈ l, SuppIn S m) → (∀ x ∈ cs.flatMap callStrings, x ∈ S) →
    ∀ m ∈ Spec.run l cs, SuppIn S m := by
  intro cs
  induction cs with
  | nil => intro l h _; exact h
  | cons c cs ih =>
    intro l h hs
    exact ih (suppIn_step h c fun x hx => hs x (by rw [List.flatMap_cons]; exact List.mem_append_left _ hx))
      fun x hx => hs x (by rw [List.flatMap_cons]; exact List.mem_append_right _ hx)

/-- Only the strings of a claim occur in its multisets. -/
theorem diff_supp (c : Claim) : SuppIn (strings c) (diff c) := by
  refine SuppIn.sub (suppIn_get (suppIn_run c.cs (by simp) ?_) _) (suppIn_get (suppIn_run c.ds (by simp) ?_) _)
  · intro x hx; exact List.mem_append_left _ hx
  · intro x hx; exact List.mem_append_right _ hx

/-! ## The hash function matters only at the strings of the claim -/

section
variable {A : Type} [AddCommGroup A] {C : Curve A}

theorem fold_congr {H H' : Bytes → Bytes} : ∀ (xs : List Bytes) (st : Bytes), (∀ x ∈ xs, H x = H' x) →
    foldElements C H st xs = foldElements C H' st xs := by
  intro xs
  induction xs with
  | nil => intro st _; rfl
  | cons x xs ih =>
    intro st h
    simp only [foldElements, genCurvePoint_eq, Res.bind_ok, h x (by simp)]
    exact ih _ fun y hy => h y (List.mem_cons_of_mem _ hy)

theorem step_congr {H H' : Bytes → Bytes} (l : List Bytes) (c : Call) (h : ∀ x ∈ callStrings c, H x = H' x) : step C H l c = step C H' l c := by
  cases c with
  | newVector xs => simp only [step, fromVector, fold_congr xs _ h]
  | add i x => simp only [step, addElement, genCurvePoint_eq, h x (by simp [callStrings])]
  | remove i x => simp only [step, removeElement, genCurvePoint_eq, h x (by simp [callStrings])]
  | _ => rfl

theorem run_congr {H H' : Bytes → Bytes} : ∀ (cs : List Call) (l : List Bytes), (∀ x ∈ cs.flatMap callStrings, H x = H' x) →
    run C H l cs = run C H' l cs := by
  intro cs
  induction cs with
  | nil => intro l _; rfl
  | cons c cs ih =>
    intro l h
    have hc := step_congr (C := C) l c fun x hx => h x (by rw [List.flatMap_cons]; exact List.mem_append_left _ hx)
    have hr : ∀ l, run C H l cs = run C H' l cs := fun l => ih l fun x hx => h x (by rw [List.flatMap_cons]; exact List.mem_append_right _ hx)
    simp only [run, hc, hr]

theorem wins_congr {ℓ : Nat} {H H' : Bytes → Bytes} {c : Claim} (h : ∀ x ∈ strings c, H x = H' x) : Wins C ℓ H c ↔ Wins C ℓ H' c := by
  have h1 : run C H [] c.cs = run C H' [] c.cs := run_congr _ _ fun x hx => h x (List.mem_append_left _ hx)
  have h2 : run C H [] c.ds = run C H' [] c.ds := run_congr _ _ fun x hx => h x (List.mem_append_right _ hx)
  unfold Wins Equal
  rw [h1, h2]

/-- A collision is a relation between points. -/
theorem wins_val (hC : C.Ok) {ℓ : Nat} {H : Bytes → Bytes} {c : Claim} (h : Wins C ℓ H c) : val C H (diff c) = 0 := by
  obtain ⟨⟨l, k, s, t, hl, hk, hs, ht, he⟩, _⟩ := h
  obtain ⟨_, h2, h3⟩ := c34_multiplicity hC _ _ l k hl hk _ _ s t hs ht
  have := h2.1 (h3.1 he)
  unfold diff
  rw [val_sub]
  unfold msetOf at this
  rw [this, sub_self]

/-! ## Keys -/

/-- The strings that have been asked for. -/
def keys (L : List (Bytes × Bytes)) : List Bytes := L.map Prod.fst

/-- Strings of claims have been asked for. -/
def Covered : List Bytes → Finder → Prop
  | ks, .out c => ∀ x ∈ strings c, x ∈ ks
  | ks, .ask s k => ∀ y, Covered (s :: ks) (k y)

theorem Covered.mono : ∀ {F : Finder} {ks ks' : List Bytes}, Covered ks F → (∀ x ∈ ks, x ∈ ks') → Covered ks' F := by
  intro F
  induction F with
  | out c => intro ks ks' h hs x hx; exact hs x (h x hx)
  | ask s k ih =>
    intro ks ks' h hs y
    refine ih y (h y) ?_
    intro x hx
    rcases List.mem_cons.1 hx with rfl | hx
    · exact List.mem_cons_self
    · exact List.mem_cons_of_mem _ (hs x hx)

theorem covered_askAll (c : Claim) : ∀ (r ks : List Bytes), (∀ x ∈ strings c, x ∈ r ∨ x ∈ ks) → Covered ks (askAll c r) := by
  intro r
  induction r with
  | nil => intro ks h x hx; simpa using h x hx
  | cons s r ih =>
    intro ks h y
    refine ih _ fun x hx => ?_
    rcases h x hx with h | h
    · rcases List.mem_cons.1 h with rfl | h
      · exact .inr List.mem_cons_self
      · exact .inl h
    · exact .inr (List.mem_cons_of_mem _ h)

theorem covered_finish : ∀ (F : Finder) (ks : List Bytes), Covered ks (finish F) := by
  intro F
  induction F with
  | out c => intro ks; exact covered_askAll c _ _ fun x hx => .inl hx
  | ask s k ih => intro ks y; exact ih y _

theorem short_finish : ∀ (F : Finder) (q : Nat), Few q F → Short q (finish F) := by
  have all : ∀ (c : Claim) (r : List Bytes) (q : Nat), r.length ≤ q → Short q (askAll c r) := by
    intro c r
    induction r with
    | nil => intro q _; unfold askAll; cases q <;> trivial
    | cons s r ih =>
      intro q h
      cases q with
      | zero => simp at h
      | succ q => exact fun _ => ih q (by simpa using h)
  intro F
  induction F with
  | out c =>
    intro q h
    have : (strings c).length ≤ q := by cases q <;> exact h
    exact all c _ q this
  | ask s k ih =>
    intro q h
    cases q with
    | zero => exact h.elim
    | succ q => exact fun y => ih y q (h y)

theorem inside_finish (D : Finset Bytes) : ∀ F : Finder, Inside D F → Inside D (finish F) := by
  have all : ∀ (c : Claim), (∀ x ∈ strings c, x ∈ D) → ∀ (r : List Bytes), (∀ x ∈ r, x ∈ D) → Inside D (askAll c r) := by
    intro c hc r
    induction r with
    | nil => intro _; exact hc
    | cons s r ih => intro h; exact ⟨h s (by simp), fun _ => ih fun x hx => h x (List.mem_cons_of_mem _ hx)⟩
  intro F
  induction F with
  | out c => intro h; exact all c h _ h
  | ask s k ih => intro h; exact ⟨h.1, fun y => ih y (h.2 y)⟩

theorem result_finish (H : Bytes → Bytes) : ∀ F : Finder, result H (finish F) = result H F := by
  have all : ∀ (c : Claim) (r : List Bytes), result H (askAll c r) = c := by
    intro c r
    induction r with
    | nil => rfl
    | cons s r ih => exact ih
  intro F
  induction F with
  | out c => exact all c _
  | ask s k ih => exact ih _

theorem lookup_mem : ∀ {L : List (Bytes × Bytes)} {s y : Bytes}, L.lookup s = some y → s ∈ keys L := by
  intro L
  induction L with
  | nil => intro s y h; cases h
  | cons p L ih =>
    intro s y h
    rw [List.lookup_cons] at h
    by_cases c : s = p.1
    · rw [c]; exact List.mem_cons_self
    · rw [show (s == p.1) = false by simpa using c] at h
      exact List.mem_cons_of_mem _ (ih h)

theorem lookup_none : ∀ {L : List (Bytes × Bytes)} {s : Bytes}, L.lookup s = none → s ∉ keys L := by
  intro L
  induction L with
  | nil => intro s _ h; cases h
  | cons p L ih =>
    intro s h hm
    rw [List.lookup_cons] at h
    by_cases c : s = p.1
    · rw [show (s == p.1) = true by simpa using c] at h; cases h
    · rw [show (s == p.1) = false by simpa using c] at h
      rcases List.mem_cons.1 hm with e | hm
      · exact c e
      · exact ih h hm

/-- The hash function given by the answers so far. -/
def partH (L : List (Bytes × Bytes)) (x : Bytes) : Bytes := (L.lookup x).getD []

/-! ## Drawing the table when it is asked for -/

/-- The probability to find a collision when hashes are drawn when they are asked for. -/
noncomputable def lazy (C : Curve A) (ℓ : Nat) : List (Bytes × Bytes) → Finder → ℚ
  | L, .out c => ind (Wins C ℓ (partH L) c)
  | L, .ask s k =>
    match L.lookup s with
    | some y => lazy C ℓ L (k y)
    | none => E fun y => lazy C ℓ ((s, two y) :: L) (k (two y))

/-- The answers so far, and the table elsewhere. -/
def both (L : List (Bytes × Bytes)) (F : Bytes → Bytes) (x : Bytes) : Bytes := (L.lookup x).getD (F x)

theorem table_lazy (ℓ : Nat) (D : Finset Bytes) (F : Finder) : ∀ L, Inside D F → Covered (keys L) F →
    E (fun R => ind (Wins C ℓ (both L (table D R)) (result (both L (table D R)) F))) = lazy C ℓ L F := by
  induction F with
  | out c =>
    intro L _ hc
    simp only [result, lazy]
    have e : ∀ R, ind (Wins C ℓ (both L (table D R)) c) = ind (Wins C ℓ (partH L) c) := by
      intro R
      refine congrArg ind (propext (wins_congr fun x hx => ?_))
      unfold both partH
      cases hl : L.lookup x with
      | some y => rfl
      | none => exact absurd (hc x hx) (lookup_none hl)
    simp only [e]
    exact E_const _
  | ask s k ih =>
    intro L hD hc
    simp only [result, lazy]
    cases hl : L.lookup s with
    | some y =>
      have e : ∀ F : Bytes → Bytes, both L F s = y := fun F => by rw [both, hl, Option.getD_some]
      simp only [e]
      refine ih y L (hD.2 y) ((hc y).mono fun x hx => ?_)
      rcases List.mem_cons.1 hx with rfl | hx
      · exact lookup_mem hl
      · exact hx
    | none =>
      have e : ∀ F : Bytes → Bytes, both L F s = F s := fun F => by rw [both, hl, Option.getD_none]
      simp only [e]
      rw [E_update (⟨s, hD.1⟩ : D) (fun R => ind (Wins C ℓ (both L (table D R)) (result (both L (table D R)) (k (table D R s))))), E_comm]
      refine congrArg E (funext fun y => ?_)
      rw [← ih (two y) ((s, two y) :: L) (hD.2 _) (hc _)]
      refine congrArg E (funext fun R => ?_)
      have e1 : table D (Function.update R ⟨s, hD.1⟩ y) s = two y := by
        rw [table, dif_pos hD.1, Function.update_self]
      have e2 : both L (table D (Function.update R ⟨s, hD.1⟩ y)) = both ((s, two y) :: L) (table D R) := by
        funext x
        unfold both
        by_cases c : x = s
        · subst c
          rw [hl, List.lookup_cons_self, Option.getD_none, Option.getD_some, e1]
        · rw [List.lookup_cons, show (x == s) = false by simpa using c]
          simp only
          congr 1
          unfold table
          by_cases h : x ∈ D
          · rw [dif_pos h, dif_pos h, Function.update_of_ne]
            simpa using c
          · rw [dif_neg h, dif_neg h]
      rw [e1, e2]

/-! ## The coefficients of `Q` are hidden -/

variable {ℓ : Nat} [Fact ℓ.Prime] {g : A}

theorem E_linear {d : ZMod ℓ} (hd : d ≠ 0) (c : ZMod ℓ) : E (fun t : ZMod ℓ => ind (c + d * t = 0)) = 1 / ℓ := by
  have e : ∀ t : ZMod ℓ, ind (c + d * t = 0) = if t = -c * d⁻¹ then 1 else 0 := by
    intro t
    by_cases h : t = -c * d⁻¹
    · rw [if_pos h, ind_true]
      rw [h]; field_simp; ring
    · rw [if_neg h, ind_false]
      intro h0
      apply h
      rw [eq_mul_inv_iff_mul_eq₀ hd, eq_neg_iff_add_eq_zero, mul_comm, add_comm]
      exact h0
  unfold E
  simp only [e]
  rw [Finset.sum_ite_eq', if_pos (Finset.mem_univ _), ZMod.card]

theorem E_dot (f : Bytes → ZMod ℓ) : ∀ (L : List (Bytes × Bytes)), (∃ x ∈ keys L, f x ≠ 0) → ∀ c : ZMod ℓ,
    E (fun ts : Fin L.length → ZMod ℓ => ind (c + (List.zipWith (fun x t => f x.1 * t) L (List.ofFn ts)).sum = 0)) = 1 / ℓ := by
  intro L
  induction L with
  | nil => rintro ⟨x, hx, _⟩; cases hx
  | cons p L ih =>
    rintro ⟨x, hx, hf⟩ c
    refine (Oracle.E_cons (n := L.length) (fun l : List (ZMod ℓ) => ind (c + (List.zipWith (fun x t => f x.1 * t) (p :: L) l).sum = 0))).trans ?_
    simp only [List.zipWith_cons_cons, List.sum_cons]
    by_cases hp : f p.1 = 0
    · simp only [hp, zero_mul, zero_add]
      have : ∃ x ∈ keys L, f x ≠ 0 := by
        rcases List.mem_cons.1 hx with rfl | hx
        · exact absurd hp hf
        · exact ⟨x, hx, hf⟩
      simp only [ih this]
      exact E_const _
    · rw [E_comm]
      have e : ∀ ts : Fin L.length → ZMod ℓ, E (fun t : ZMod ℓ => ind (c + (f p.1 * t + (List.zipWith (fun x t => f x.1 * t) L (List.ofFn ts)).sum) = 0)) = 1 / ℓ := by
        intro ts
        rw [← E_linear hp (c + (List.zipWith (fun x t => f x.1 * t) L (List.ofFn ts)).sum)]
        refine congrArg E (funext fun t => congrArg ind ?_)
        rw [show c + (f p.1 * t + (List.zipWith (fun x t => f x.1 * t) L (List.ofFn ts)).sum) =
          c + (List.zipWith (fun x t => f x.1 * t) L (List.ofFn ts)).sum + f p.1 * t by ring]
      simp only [e]
      exact E_const _

/-- The representations of the answers, for given coefficients of `Q`. -/
noncomputable def reps (hG : Gen C ℓ g) (a : ZMod ℓ) (L : List (Bytes × Bytes)) (ts : List (ZMod ℓ)) : List (ZMod ℓ × ZMod ℓ) :=
  List.zipWith (fun x t => (lg hG (C.fromUniform (x.2.take 32)) - t * a, t)) L ts

theorem combine_reps (hG : Gen C ℓ g) (a : ZMod ℓ) (d : Spec.MSet) : ∀ (L : List (Bytes × Bytes)) (ts : List (ZMod ℓ)), ts.length = L.length →
    combine d L ((reps hG a L ts).map Prod.fst) + combine d L ((reps hG a L ts).map Prod.snd) * a =
      (L.map fun x => (d (.inl x.1) : ZMod ℓ) * lg hG (C.fromUniform (x.2.take 32))).sum ∧
    combine d L ((reps hG a L ts).map Prod.snd) = combine d L ts := by
  intro L
  induction L with
  | nil => intro ts _; simp [combine, reps]
  | cons p L ih =>
    intro ts h
    cases ts with
    | nil => simp at h
    | cons t ts =>
      obtain ⟨h1, h2⟩ := ih ts (by simpa using h)
      unfold combine reps at *
      simp only [List.zipWith_cons_cons, List.map_cons, List.sum_cons]
      rw [← h1, h2]
      exact ⟨by ring, rfl⟩

/-- The sum of the points, as a multiple of `g`. -/
theorem val_keys (hC : C.Ok) (hG : Gen C ℓ g) (d : Spec.MSet) (h0 : ∀ b, d (.inr b) = 0) {L : List (Bytes × Bytes)} (hL : (keys L).Nodup) (hd : SuppIn (keys L) d) :
    val C (partH L) d = mul g (L.map fun x => (d (.inl x.1) : ZMod ℓ) * lg hG (C.fromUniform (x.2.take 32))).sum := by
  classical
  have hval : val C (partH L) d = ((keys L).map fun s => d (.inl s) • point C (partH L) (.inl s)).sum := by
    have hnd : ((keys L).map (Sum.inl : Bytes → Bytes ⊕ Bytes)).Nodup := hL.map Sum.inl_injective
    unfold val
    rw [Finsupp.sum_of_support_subset (s := ((keys L).map (Sum.inl : Bytes → Bytes ⊕ Bytes)).toFinset) _ ?_ _ (fun _ _ => zero_zsmul _),
      List.sum_toFinset _ hnd, List.map_map]
    · rfl
    · intro x hx
      rw [Finsupp.mem_support_iff] at hx
      cases x with
      | inl x => rw [List.mem_toFinset]; exact List.mem_map_of_mem (hd x hx)
      | inr b => exact absurd (h0 b) hx
  rw [hval]
  have look : ∀ (L : List (Bytes × Bytes)), (keys L).Nodup → ∀ x ∈ L, L.lookup x.1 = some x.2 := by
    intro L
    induction L with
    | nil => intro _ x hx; cases hx
    | cons p L ih =>
      intro hn x hx
      have hn' := List.nodup_cons.1 hn
      rcases List.mem_cons.1 hx with rfl | hx
      · exact List.lookup_cons_self
      · rw [List.lookup_cons, show (x.1 == p.1) = false by
          have : x.1 ≠ p.1 := fun e => hn'.1 (e ▸ List.mem_map_of_mem hx)
          simpa using this]
        exact ih hn'.2 x hx
  have lk := look L hL
  have gen : ∀ M : List (Bytes × Bytes), (∀ x ∈ M, L.lookup x.1 = some x.2) →
      ((keys M).map fun s => d (.inl s) • point C (partH L) (.inl s)).sum =
      mul g (M.map fun x => (d (.inl x.1) : ZMod ℓ) * lg hG (C.fromUniform (x.2.take 32))).sum := by
    intro M
    induction M with
    | nil => intro _; exact mul_zero'.symm
    | cons p M ih =>
      intro h
      simp only [keys, List.map_cons, List.sum_cons]
      rw [mul_add hG.zero, ← mul_int hG.zero, mul_lg hG (hC.uniform_mem _)]
      have := ih fun x hx => h x (List.mem_cons_of_mem _ hx)
      unfold keys at this
      rw [this]
      congr 2
      show C.fromUniform ((partH L p.1).take 32) = _
      unfold partH
      rw [h p (by simp), Option.getD_some]
  exact gen L lk

/-- Given all answers, a collision gives the logarithm unless the coefficients of `Q` cancel. -/
theorem hide (hC : C.Ok) (hG : Gen C ℓ g) (a : ZMod ℓ) (F : Finder) : ∀ L : List (Bytes × Bytes), (keys L).Nodup → Covered (keys L) F →
    (1 - 1 / ℓ) * lazy C ℓ L F ≤ E (fun ts : Fin L.length → ZMod ℓ => ideal hG a L (reps hG a L (List.ofFn ts)) F) := by
  induction F with
  | out c =>
    intro L hL hc
    simp only [lazy, ideal]
    by_cases hw : Wins C ℓ (partH L) c
    · rw [ind_true hw, mul_one]
      have hsupp : SuppIn (keys L) (diff c) := fun x hx => hc x (diff_supp c x hx)
      have hzero : (L.map fun x => (diff c (.inl x.1) : ZMod ℓ) * lg hG (C.fromUniform (x.2.take 32))).sum = 0 := by
        refine mul_inj hG ?_
        rw [← val_keys hC hG _ hw.2.2 hL hsupp, wins_val hC hw, mul_zero']
      have hex : ∃ x ∈ keys L, (diff c (.inl x) : ZMod ℓ) ≠ 0 := by
        obtain ⟨x, hx⟩ := hw.2.1
        refine ⟨x, hsupp x fun h => hx (by rw [h]; exact dvd_zero _), ?_⟩
        intro h
        exact hx ((ZMod.intCast_zmod_eq_zero_iff_dvd _ _).1 h)
      have hdot := E_dot (fun x => (diff c (.inl x) : ZMod ℓ)) L hex 0
      have hE : (1 : ℚ) - 1 / ℓ = E (fun ts : Fin L.length → ZMod ℓ => 1 - ind (0 + (List.zipWith (fun x t => (diff c (.inl x.1) : ZMod ℓ) * t) L (List.ofFn ts)).sum = 0)) := by
        rw [← E_sub, E_const, hdot]
      rw [hE]
      refine E_mono fun ts => ?_
      by_cases h0 : 0 + (List.zipWith (fun x t => (diff c (.inl x.1) : ZMod ℓ) * t) L (List.ofFn ts)).sum = 0
      · rw [ind_true h0, sub_self]; exact ind_nonneg _
      · rw [ind_false h0, sub_zero]
        obtain ⟨h1, h2⟩ := combine_reps hG a (diff c) L (List.ofFn ts) (by simp)
        rw [ind_true]
        rw [hzero] at h1
        have hN : combine (diff c) L ((reps hG a L (List.ofFn ts)).map Prod.snd) ≠ 0 := by
          rw [h2]; rw [zero_add] at h0; exact h0
        unfold solve
        rw [mul_inv_eq_iff_eq_mul₀ hN, neg_eq_iff_add_eq_zero, mul_comm a]
        exact h1
    · rw [ind_false hw, mul_zero]
      exact E_nonneg fun _ => ind_nonneg _
  | ask s k ih =>
    intro L hL hc
    simp only [lazy, ideal]
    cases hl : L.lookup s with
    | some y =>
      refine ih y L hL ((hc y).mono fun x hx => ?_)
      rcases List.mem_cons.1 hx with rfl | hx
      · exact lookup_mem hl
      · exact hx
    | none =>
      simp only
      rw [E_comm]
      have lin : (1 - 1 / (ℓ : ℚ)) * E (fun y => lazy C ℓ ((s, two y) :: L) (k (two y))) =
          E (fun y => (1 - 1 / (ℓ : ℚ)) * lazy C ℓ ((s, two y) :: L) (k (two y))) := by
        unfold E
        rw [← Finset.mul_sum, mul_div_assoc]
      rw [lin]
      refine E_mono fun y => ?_
      have h := ih (two y) ((s, two y) :: L) (List.nodup_cons.2 ⟨lookup_none hl, hL⟩) (hc _)
      rw [show (E fun ts : Fin ((s, two y) :: L).length → ZMod ℓ => ideal hG a ((s, two y) :: L) (reps hG a ((s, two y) :: L) (List.ofFn ts)) (k (two y))) =
        E fun t => E fun ts : Fin L.length → ZMod ℓ => ideal hG a ((s, two y) :: L) (reps hG a ((s, two y) :: L) (t :: List.ofFn ts)) (k (two y)) from
        Oracle.E_cons (n := L.length) (fun l => ideal hG a ((s, two y) :: L) (reps hG a ((s, two y) :: L) l) (k (two y))), E_comm] at h
      refine le_trans h (le_of_eq ?_)
      refine congrArg E (funext fun ts => congrArg E (funext fun t => ?_))
      have ht : (two y).take 32 = toBytes y.1 := by
        unfold two
        exact List.take_left' (by simp [toBytes])
      unfold reps
      rw [List.zipWith_cons_cons]
      simp only [ht]
      rfl

/-- The collision game and the algorithm for logarithms. -/
theorem coll_le (hC : C.Ok) (hG : Gen C ℓ g) {inv : A → List (Block 32)} {K : Nat} (hI : Inverse C inv K) (n : Nat) {q : Nat} {D : Finset Bytes} {F : Finder}
    (hq : Few q F) (hD : Inside D F) :
    (1 - 1 / ℓ) * coll C ℓ D F ≤ advDl (ℓ := ℓ) g (reduce g inv K n F) + q * miss ℓ K n := by
  have h1 : coll C ℓ D F = lazy C ℓ [] (finish F) := by
    rw [← table_lazy ℓ D (finish F) [] (inside_finish D F hD) (covered_finish F _)]
    unfold coll
    refine congrArg E (funext fun R => ?_)
    have : both [] (table D R) = table D R := rfl
    rw [this, result_finish]
  have h2 : ∀ a : ZMod ℓ, (1 - 1 / ℓ) * lazy C ℓ [] (finish F) - q * miss ℓ K n ≤
      (reduce (ℓ := ℓ) g inv K n F (mul g a)).chance (· = a) := by
    intro a
    have h3 := hide hC hG a (finish F) [] List.nodup_nil (covered_finish F _)
    have h4 := chance_reduce hC hG hI a n (finish F) q [] [] (short_finish F q hq)
    have h5 : (E fun ts : Fin (List.length ([] : List (Bytes × Bytes))) → ZMod ℓ => ideal hG a [] (reps hG a [] (List.ofFn ts)) (finish F)) = ideal hG a [] [] (finish F) :=
      E_const (ideal hG a [] [] (finish F))
    rw [h5] at h3
    unfold reduce
    linarith
  rw [h1]
  have h6 := E_mono h2
  rw [E_const] at h6
  unfold advDl
  linarith
end

end Verif.SetHash.Game
