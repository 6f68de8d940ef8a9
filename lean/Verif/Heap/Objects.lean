/-
Rules for objects: storage that is not initialised at first, constructors, destructors.
-/
import Verif.Heap.ExpGood

namespace Verif.Heap
open Cmd

variable {f g : Fl} {V W N N1 N2 U U1 U2 : List Nat} {x y : Nat} {c d h c1 c2 use dtor : Cmd} {L : Led} {e : Nat → Prop}
  {σ σ' : St}

/-- The body of a scope whose locals `N` are not yet initialised. -/
def Fresh (f : Fl) (V W N : List Nat) (c : Cmd) : Prop :=
  ∀ (L : Led) (e : Nat → Prop) (σ : St) (o : Out) (σ' : St), Inv L (fun x => e x ∨ x ∈ N) σ →
    (∀ x, x ∈ V ∨ x ∈ W → x < σ.nv ∧ ¬ e x ∧ x ∉ N) → (∀ x ∈ N, x < σ.nv ∧ ¬ e x) → Run c σ o σ' →
    Flow f o ∧ Frame (W ++ N) σ σ' ∧ ∃ L', Ext f o L L' ∧ Done L' e N σ'

theorem Good.localsU {k : Nat} {N : Nat → List Nat} {c : Nat → Cmd} (hN : ∀ b x, x ∈ N b ↔ b ≤ x ∧ x < b + k)
    (hc : ∀ b, (∀ x, x ∈ V ∨ x ∈ W → x < b) → Fresh f V W (N b) (c b)) : Good f V W (.locals k c) := by
  intro L e σ o σ' hI hs hr
  cases hr with
  | locals h2 =>
    rename_i σ2
    have hvar : ∀ x, x < σ.nv → (σ.push k).vars x = σ.vars x := by
      intro x hx
      have h2 : ¬ (σ.nv ≤ x ∧ x < σ.nv + k) := by omega
      simp only [St.push, if_neg h2]
    have hown : ∀ x a, x < σ.nv → (Owns (σ.push k) x a ↔ Owns σ x a) := by
      intro x a hx
      unfold Owns
      rw [hvar x hx]
    have hnone : ∀ x ∈ N σ.nv, ∀ a, ¬ Owns (σ.push k) x a := by
      rintro x hx a ⟨m, hm, hp⟩
      simp only [St.push, if_pos ((hN _ _).1 hx)] at hm
      cases hm
    have hcase : ∀ x, x < (σ.push k).nv → x < σ.nv ∨ x ∈ N σ.nv := by
      intro x hx
      have hx : x < σ.nv + k := hx
      by_cases h : x < σ.nv
      · exact .inl h
      · exact .inr ((hN _ _).2 ⟨by omega, by omega⟩)
    have hI1 : Inv L (fun x => e x ∨ x ∈ N σ.nv) (σ.push k) := by
      refine ⟨?_, ?_, ?_, ?_, hI.wip⟩
      · rintro x (hx | hx)
        · have := hI.exl x hx; show x < σ.nv + k; omega
        · exact ((hN _ _).1 hx).2
      · intro x hx he
        rcases hcase x hx with h | h
        · rw [hvar x h]; exact hI.ini x h fun h => he (.inl h)
        · exact absurd (.inr h) he
      · intro x y a hx hy he he' h1 h2
        rcases hcase x hx with hx' | hx'
        · rcases hcase y hy with hy' | hy'
          · exact hI.inj x y a hx' hy' (fun h => he (.inl h)) (fun h => he' (.inl h)) ((hown x a hx').1 h1) ((hown y a hy').1 h2)
          · exact absurd h2 (hnone y hy' a)
        · exact absurd h1 (hnone x hx' a)
      · intro a ha hl
        rcases hI.own a ha hl with h | ⟨x, hx, he, ho⟩
        · exact .inl h
        · refine .inr ⟨x, ?_, ?_, (hown x a hx).2 ho⟩
          · show x < σ.nv + k; omega
          · rintro (h | h)
            · exact he h
            · have := ((hN _ _).1 h).1; omega
    have hlow : ∀ x, x ∈ V ∨ x ∈ W → x ∉ N σ.nv := fun x hx h => by
      have := (hs x hx).1
      have := ((hN _ _).1 h).1
      omega
    obtain ⟨f1, g1, L1, x1, e', he1, he2, i1, hd⟩ := hc σ.nv (fun x hx => (hs x hx).1) L e (σ.push k) _ _ hI1
      (fun x hx => ⟨by have := (hs x hx).1; show x < σ.nv + k; omega, (hs x hx).2, hlow x hx⟩)
      (fun x hx => ⟨((hN _ _).1 hx).2, fun h => by
        have := hI.exl x h; have := ((hN _ _).1 hx).1; omega⟩) h2
    have hnv2 : σ2.nv = σ.nv + k := g1.nv
    have hne : ∀ x, x < σ.nv → ¬ e x → ¬ e' x := by
      intro x hx he h
      rcases he2 x h with h | h
      · exact he h
      · have := ((hN _ _).1 h).1; omega
    refine ⟨f1, ⟨rfl, g1.nh, ?_, ?_, ?_, g1.dead⟩, L1, x1, ⟨hI.exl, ?_, ?_, ?_, i1.wip⟩⟩
    · intro x hx hxW
      have h1 : x ∉ W ++ N σ.nv := by
        simp only [List.mem_append, not_or]
        exact ⟨hxW, fun h => by have := ((hN _ _).1 h).1; omega⟩
      show σ2.vars x = _
      rw [g1.vars x (by show x < σ.nv + k; omega) h1, hvar x hx]
    · intro a ha hno
      show σ2.heap a = _
      rw [g1.heap a ha]
      · rfl
      intro x hx
      rcases List.mem_append.1 hx with h | h
      · rw [hown x a (hs x (.inr h)).1]; exact hno x h
      · exact hnone x h a
    · intro x hx a ho
      rcases g1.src x (by simp [hx]) a ho with ⟨y, hy, hyo⟩ | hge
      · rcases List.mem_append.1 hy with h | h
        · exact .inl ⟨y, h, (hown y a (hs y (.inr h)).1).1 hyo⟩
        · exact absurd hyo (hnone y h a)
      · exact .inr hge
    · intro x hx he
      exact i1.ini x (by have : x < σ.nv := hx; omega) (hne x hx he)
    · intro x y a hx hy he he' h1 h2
      have hx' : x < σ.nv := hx
      have hy' : y < σ.nv := hy
      exact i1.inj x y a (by omega) (by omega) (hne x hx he) (hne y hy he') h1 h2
    · intro a ha hl
      rcases i1.own a ha hl with h | ⟨x, hx, he, ho⟩
      · exact .inl h
      · right
        have hxn : x < σ.nv := by
          rcases hcase x (by show x < σ.nv + k; rw [← hnv2]; exact hx) with h | h
          · exact h
          · rcases hd x h with h' | h'
            · exact absurd h' he
            · exact absurd ho (not_owns_null h' a)
        exact ⟨x, hxn, fun h => he (he1 x h), ho⟩

/-! ### Initialisation -/

/-- The program initialises the structures `U` (which are not yet initialised, or hold nothing). -/
def Build (f : Fl) (V W U : List Nat) (c : Cmd) : Prop :=
  ∀ (L : Led) (e : Nat → Prop) (σ : St) (o : Out) (σ' : St), Inv L e σ →
    (∀ x, x ∈ V ∨ x ∈ W → x < σ.nv ∧ ¬ e x ∧ x ∉ U) → (∀ x ∈ U, x < σ.nv ∧ (e x ∨ Null σ x)) → Run c σ o σ' →
    Flow f o ∧ Frame (W ++ U) σ σ' ∧ ∃ L' e', Ext f o L L' ∧ (∀ x, e' x → e x) ∧ (∀ x, e x → e' x ∨ x ∈ U) ∧
      Inv L' e' σ' ∧ (o = .ok → ∀ x ∈ U, ¬ e' x)

theorem Build.good (hc : Good f V W c) : Build f V W [] c := by
  intro L e σ o σ' hI hs hu hr
  obtain ⟨f1, g1, L1, x1, i1⟩ := hc L e σ o σ' hI (fun x hx => ⟨(hs x hx).1, (hs x hx).2.1⟩) hr
  exact ⟨f1, by simpa using g1, L1, e, x1, fun _ h => h, fun _ h => .inl h, i1, fun _ x hx => by cases hx⟩

/-- What `mbedtls_mpi_init` of all of `xs` does. -/
def Inits (xs : List Nat) (c : Cmd) : Prop :=
  ∀ (σ : St) (o : Out) (σ' : St), (∀ x ∈ xs, x < σ.nv) → Run c σ o σ' →
    o = .ok ∧ σ'.nv = σ.nv ∧ σ'.nh = σ.nh ∧ σ'.heap = σ.heap ∧
      ∀ y, σ'.vars y = if y ∈ xs then some .null else σ.vars y

theorem inits_initAll (xs : List Nat) : Inits xs (initAll xs) := run_initAll xs

theorem Inits.seq {xs : List Nat} (hc : Inits xs c) (hd : Inits xs d) : Inits xs (.seq c d) := by
  intro σ o σ' hx hr
  cases hr with
  | seqStop h ho => exact absurd (hc _ _ _ hx h).1 ho
  | seqOk h h' =>
    obtain ⟨_, a1, a2, a3, a4⟩ := hc _ _ _ hx h
    obtain ⟨b0, b1, b2, b3, b4⟩ := hd _ _ _ (by rw [a1]; exact hx) h'
    refine ⟨b0, b1.trans a1, b2.trans a2, b3.trans a3, fun y => ?_⟩
    rw [b4, a4]
    split <;> rfl

theorem Build.inits {xs : List Nat} (hc : Inits xs c) : Build f V W xs c := by
  intro L e σ o σ' hI hs hu hr
  obtain ⟨rfl, h1, h2, h3, h4⟩ := hc σ o σ' (fun x hx => (hu x hx).1) hr
  have hn : ∀ x ∈ xs, Null σ' x := fun x hx => by rw [Null, h4, if_pos hx]
  have hv : ∀ x, x ∉ xs → σ'.vars x = σ.vars x := fun x hx => by rw [h4, if_neg hx]
  have hown : ∀ x a, x ∉ xs → (Owns σ' x a ↔ Owns σ x a) := fun x a hx => by unfold Owns; rw [hv x hx]
  refine ⟨Flow.okF, ⟨h1, by rw [h2]; exact Nat.le_refl _, ?_, ?_, ?_, ?_⟩, L, fun x => e x ∧ x ∉ xs, Ext.refl _ _ _, fun x h => h.1, ?_,
    ⟨?_, ?_, ?_, ?_, ?_⟩, fun _ x hx h => h.2 hx⟩
  · intro x hx hxW
    exact hv x fun h => hxW (by simp [h])
  · intro a _ _; rw [h3]
  · intro x hx a ho
    by_cases h : x ∈ xs
    · exact absurd ho (not_owns_null (hn x h) a)
    · exact .inl ⟨x, hx, (hown x a h).1 ho⟩
  · intro a _ hl; rw [h3]; exact hl
  · intro x hx
    by_cases h : x ∈ xs
    · exact .inr h
    · exact .inl ⟨hx, h⟩
  · intro x hx; rw [h1]; exact hI.exl x hx.1
  · intro x hx he
    rw [h1] at hx
    by_cases h : x ∈ xs
    · exact ⟨.null, hn x h, fun _ => rfl, fun a ha => by cases ha⟩
    · rw [hv x h, h2, h3]
      exact hI.ini x hx fun h' => he ⟨h', h⟩
  · intro y z a hy hz hey hez o1 o2
    rw [h1] at hy hz
    have hy' : y ∉ xs := fun h => not_owns_null (hn y h) a o1
    have hz' : z ∉ xs := fun h => not_owns_null (hn z h) a o2
    exact hI.inj y z a hy hz (fun h => hey ⟨h, hy'⟩) (fun h => hez ⟨h, hz'⟩) ((hown y a hy').1 o1) ((hown z a hz').1 o2)
  · intro a ha hl
    rw [h2] at ha
    rw [h3] at hl
    rcases hI.own a ha hl with h | ⟨x, hx, he, ho⟩
    · exact .inl h
    · have hx' : x ∉ xs := by
        intro h
        rcases (hu x h).2 with h' | h'
        · exact he h'
        · exact not_owns_null h' a ho
      exact .inr ⟨x, by rw [h1]; exact hx, fun h => he h.1, (hown x a hx').2 ho⟩
  · intro a ha hl
    rw [h2] at ha
    rw [h3] at hl ⊢
    exact hI.wip a ha hl

theorem Build.init (xs : List Nat) : Build f V W xs (initAll xs) := Build.inits (inits_initAll xs)

theorem Build.seq (hc : Build f V W U1 c) (hd : Build f V (W ++ U1) U2 d) (hdis : ∀ x ∈ U1, x ∉ U2) :
    Build f V W (U1 ++ U2) (.seq c d) := by
  intro L e σ o σ' hI hs hu hr
  have hs1 : ∀ x, x ∈ V ∨ x ∈ W → x < σ.nv ∧ ¬ e x ∧ x ∉ U1 := fun x hx =>
    ⟨(hs x hx).1, (hs x hx).2.1, fun h => (hs x hx).2.2 (by simp [h])⟩
  have hu1 : ∀ x ∈ U1, x < σ.nv ∧ (e x ∨ Null σ x) := fun x hx => hu x (by simp [hx])
  have hWU : ∀ x ∈ W ++ (U1 ++ U2), x < σ.nv := by
    intro x hx
    rcases List.mem_append.1 hx with h | h
    · exact (hs x (.inr h)).1
    · exact (hu x h).1
  cases hr with
  | seqStop h ho =>
    obtain ⟨f1, g1, L1, e1, x1, a1, a2, i1, a3⟩ := hc L e σ _ _ hI hs1 hu1 h
    refine ⟨f1, g1.mono (fun x hx => ?_) hWU, L1, e1, x1, a1, fun x hx => ?_, i1, fun h => absurd h ho⟩
    · rcases List.mem_append.1 hx with h | h <;> simp [h]
    · rcases a2 x hx with h | h
      · exact .inl h
      · exact .inr (by simp [h])
  | seqOk h h' =>
    rename_i σ1
    obtain ⟨f1, g1, L1, e1, x1, a1, a2, i1, a3⟩ := hc L e σ _ _ hI hs1 hu1 h
    have hvs : ∀ x, x ∈ V ∨ x ∈ W ++ U1 → x < σ1.nv ∧ ¬ e1 x ∧ x ∉ U2 := by
      intro x hx
      rw [g1.nv]
      have hVW : x ∈ V ∨ x ∈ W → x < σ.nv ∧ ¬ e1 x ∧ x ∉ U2 := fun h =>
        ⟨(hs x h).1, fun h' => (hs x h).2.1 (a1 x h'), fun h' => (hs x h).2.2 (by simp [h'])⟩
      rcases hx with hx | hx
      · exact hVW (.inl hx)
      · rcases List.mem_append.1 hx with hx | hx
        · exact hVW (.inr hx)
        · exact ⟨(hu1 x hx).1, a3 rfl x hx, hdis x hx⟩
    have hu2 : ∀ x ∈ U2, x < σ1.nv ∧ (e1 x ∨ Null σ1 x) := by
      intro x hx
      rw [g1.nv]
      have h1 := hu x (by simp [hx])
      have hx1 : x ∉ U1 := fun h => hdis x h hx
      have hxW : x ∉ W := fun h => (hs x (.inr h)).2.2 (by simp [hx])
      refine ⟨h1.1, ?_⟩
      rcases h1.2 with h2 | h2
      · rcases a2 x h2 with h3 | h3
        · exact .inl h3
        · exact absurd h3 hx1
      · exact .inr (null_keep g1 h1.1 (by simp [hx1, hxW]) h2)
    obtain ⟨f2, g2, L2, e2, x2, b1, b2, i2, b3⟩ := hd L1 e1 σ1 _ _ i1 hvs hu2 h'
    refine ⟨f2, (g1.mono (fun x hx => ?_) hWU).trans (g2.mono (fun x hx => ?_) (by rw [g1.nv]; exact hWU)), L2, e2,
      x1.trans x2 (fun h => ⟨Fl.lk_ok h, h⟩) (fun h => ⟨h, h⟩), fun x hx => a1 x (b1 x hx), ?_, i2, ?_⟩
    · rcases List.mem_append.1 hx with h | h <;> simp [h]
    · simpa [List.append_assoc] using hx
    · intro x hx
      rcases a2 x hx with h | h
      · rcases b2 x h with h | h
        · exact .inl h
        · exact .inr (by simp [h])
      · exact .inr (by simp [h])
    · intro ho x hx
      rcases List.mem_append.1 hx with h | h
      · exact fun h' => a3 rfl x h (b1 x h')
      · exact b3 ho x h

theorem Build.then (hc : Build f V W U c) (hd : Good f V (W ++ U) d) : Build f V W U (.seq c d) := by
  have := hc.seq (Build.good hd) (fun x _ h => by cases h)
  simpa using this

/-- Structures that are initialised one after the other. -/
theorem Build.list {ι : Type} {keys : ι → List Nat} {rest : ι → Cmd} : ∀ (ks : List ι) (W : List Nat),
    (∀ as k bs, ks = as ++ k :: bs → Good f V (W ++ (as.flatMap keys ++ keys k)) (rest k)) →
    ks.Pairwise (fun k k' => ∀ x ∈ keys k, x ∉ keys k') →
    Build f V W (ks.flatMap keys) (seqL (ks.map fun k => .seq (initAll (keys k)) (rest k))) := by
  intro ks
  induction ks with
  | nil => intro W _ _; exact Build.good Good.skip
  | cons k ks ih =>
    intro W hr hp
    rw [List.pairwise_cons] at hp
    simp only [List.map_cons, seqL, List.flatMap_cons]
    refine Build.seq (Build.then (Build.init _) ?_) (ih _ ?_ hp.2) ?_
    · have := hr [] k ks rfl
      simpa using this
    · intro as k' bs hk
      have := hr (k :: as) k' bs (by rw [hk]; rfl)
      simpa [List.append_assoc] using this
    · intro x hx h
      rw [List.mem_flatMap] at h
      obtain ⟨k', hk', hx'⟩ := h
      exact hp.1 k' hk' x hx hx'

/-- Structures that hold nothing are initialised again. -/
theorem Nulling.rebuild (hc : Nulling V U U c) (hd : Build f V W U d) (hdis : ∀ x, x ∈ V ∨ x ∈ W → x ∉ U) :
    Good f V (W ++ U) (.seq c d) := by
  intro L e σ o σ' hI hs hr
  have hsU : ∀ x ∈ U, x < σ.nv ∧ ¬ e x := fun x hx => hs x (.inr (by simp [hx]))
  have hsc : ∀ x, x ∈ V ∨ x ∈ U → x < σ.nv ∧ ¬ e x := fun x hx => hs x (hx.imp id fun h => by simp [h])
  have hWU : ∀ x ∈ W ++ U, x < σ.nv := fun x hx => (hs x (.inr hx)).1
  cases hr with
  | seqStop h ho => exact absurd (hc L e σ _ _ hI hsc h).1 ho
  | seqOk h h' =>
    obtain ⟨_, g1, i1, n1⟩ := hc L e σ _ _ hI hsc h
    obtain ⟨f2, g2, L2, e2, x2, b1, b2, i2, b3⟩ := hd L e _ _ _ i1
      (fun x hx => by
        have := hs x (hx.imp id fun h => by simp [h])
        rw [g1.nv]
        exact ⟨this.1, this.2, hdis x hx⟩)
      (fun x hx => by rw [g1.nv]; exact ⟨(hsU x hx).1, .inr (n1 x hx)⟩) h'
    have he : e2 = e := by
      funext x
      refine propext ⟨b1 x, fun hx => ?_⟩
      rcases b2 x hx with h | h
      · exact h
      · exact absurd hx (hsU x h).2
    subst he
    exact ⟨f2, (g1.mono (fun x hx => by simp [hx]) hWU).trans g2, L2, x2, i2⟩

/-! ### Objects -/

/-- The life of an object: `c1` is the initialisation of the members and the constructor of the base class, `c2` the
body of the constructor, `use` what is done with the object, `dtor` the destructor, `g` the destructor of the base class
(called when `c2` throws). -/
def object (c1 c2 use dtor g : Cmd) : Cmd := c1 ;; .onEnd c2 (cleanup use dtor) g

theorem done_of_leakU {e1 : Nat → Prop} (hI : Inv L e1 σ) (h : ∀ x ∈ N, x < σ.nv) (h1 : ∀ x, e x → e1 x)
    (h2 : ∀ x, e1 x → e x ∨ x ∈ N) :
    Done { L with leak := fun a => L.leak a ∨ ∃ x ∈ N, Owns σ x a } e N σ := by
  obtain ⟨e', a1, a2, a3, a4⟩ := done_of_leak (N := N) hI h
  exact ⟨e', fun x hx => a1 x (h1 x hx), fun x hx => (a2 x hx).elim (h2 x) .inr, a3, a4⟩

theorem Flow.isErr {o : Out} (h : Flow { f with r := fun _ => false } o) (ho : o ≠ .ok) : o = .err := by
  have h1 := h.ub
  have h2 := h.ret
  cases o with
  | ok => exact absurd rfl ho
  | err => rfl
  | ret b => have := h2 b rfl; cases this
  | ub => exact absurd rfl h1

theorem Flow.isOk {o : Out} (h : Flow total o) : o = .ok := by
  have h1 := h.ub
  have h2 := h.ret
  have h3 := h.err
  cases o with
  | ok => rfl
  | err => have := h3 rfl; cases this
  | ret b => have := h2 b rfl; cases this
  | ub => exact absurd rfl h1

theorem Fresh.object (hf : f.er = true) (hle : f.lk .err = true) (h1 : Build { f with r := fun _ => false } V W N1 c1)
    (h2 : Build { f with r := fun _ => false } V (W ++ N1) N2 c2) (hdis : ∀ x ∈ N1, x ∉ N2)
    (hu : Good { f with r := fun _ => false } V (W ++ (N1 ++ N2)) use)
    (hd : Nulling V (W ++ (N1 ++ N2)) (N1 ++ N2) dtor)
    (hg : Good total V (W ++ N1) h) : Fresh f V W (N1 ++ N2) (object c1 c2 use dtor h) := by
  intro L e σ o σ' hI hs hn hr
  have hlk : ∀ {L L' L'' : Led}, Ext { f with r := fun _ => false } .err L L' → (∀ a, L'.leak a → L''.leak a) → L''.dirty = L'.dirty →
      Ext f .err L L'' := fun x h1 h2 =>
    ⟨fun a h => h1 a (x.leak a h), fun a h => by rw [h2]; exact x.dirty a h, fun h => (by rw [hle] at h; cases h),
      fun h a h' => x.dirty' h a (by rw [h2] at h'; exact h')⟩
  have hWN : ∀ x ∈ W ++ (N1 ++ N2), x < σ.nv := by
    intro x hx
    rcases List.mem_append.1 hx with h | h
    · exact (hs x (.inr h)).1
    · exact (hn x h).1
  have hsE : ∀ x, x ∈ V ∨ x ∈ W → x < σ.nv ∧ ¬ (e x ∨ x ∈ N1 ++ N2) ∧ x ∉ N1 := fun x hx =>
    ⟨(hs x hx).1, fun h => h.elim (hs x hx).2.1 (hs x hx).2.2, fun h => (hs x hx).2.2 (by simp [h])⟩
  have hnE : ∀ x ∈ N1, x < σ.nv ∧ ((e x ∨ x ∈ N1 ++ N2) ∨ Null σ x) := fun x hx =>
    ⟨(hn x (by simp [hx])).1, .inl (.inr (by simp [hx]))⟩
  unfold Heap.object at hr
  cases hr with
  | seqStop h ho =>
    obtain ⟨f1, g1, L1, e1, x1, a1, a2, i1, a3⟩ := h1 L _ σ _ _ hI hsE hnE h
    have := f1.isErr ho
    subst this
    refine ⟨Flow.errF hf, g1.mono (fun x hx => ?_) hWN, { L1 with leak := fun a => L1.leak a ∨ ∃ x ∈ N1 ++ N2, Owns σ' x a },
      hlk x1 (fun a h => ?_) ?_,
      done_of_leakU i1 (fun x hx => by rw [g1.nv]; exact (hn x hx).1) (fun x hx => ?_) (fun x hx => a1 x hx)⟩
    · rcases List.mem_append.1 hx with h | h <;> simp [h]
    · exact .inl h
    · rfl
    · rcases a2 x (.inl hx) with h | h
      · exact h
      · exact absurd hx (hn x (by simp [h])).2
  | seqOk h h' =>
    rename_i σ1
    obtain ⟨f1, g1, L1, e1, x1, a1, a2, i1, a3⟩ := h1 L _ σ _ _ hI hsE hnE h
    have hs2 : ∀ x, x ∈ V ∨ x ∈ W ++ N1 → x < σ1.nv ∧ ¬ e1 x ∧ x ∉ N2 := by
      intro x hx
      rw [g1.nv]
      have hVW : x ∈ V ∨ x ∈ W → x < σ.nv ∧ ¬ e1 x ∧ x ∉ N2 := fun h =>
        ⟨(hs x h).1, fun h' => (hsE x h).2.1 (a1 x h'), fun h' => (hs x h).2.2 (by simp [h'])⟩
      rcases hx with hx | hx
      · exact hVW (.inl hx)
      · rcases List.mem_append.1 hx with hx | hx
        · exact hVW (.inr hx)
        · exact ⟨(hn x (by simp [hx])).1, a3 rfl x hx, hdis x hx⟩
    have hn2 : ∀ x ∈ N2, x < σ1.nv ∧ (e1 x ∨ Null σ1 x) := by
      intro x hx
      rw [g1.nv]
      refine ⟨(hn x (by simp [hx])).1, ?_⟩
      rcases a2 x (.inr (by simp [hx])) with h | h
      · exact .inl h
      · exact absurd hx (hdis x h)
    have gfr1 : Frame (W ++ (N1 ++ N2)) σ σ1 := g1.mono (fun x hx => by
      rcases List.mem_append.1 hx with h | h <;> simp [h]) hWN
    have hee1 : ∀ x, e x → e1 x := fun x hx => by
      rcases a2 x (.inl hx) with h | h
      · exact h
      · exact absurd hx (hn x (by simp [h])).2
    -- after the constructor
    have hlater : ∀ {o2 σ2}, Run c2 σ1 o2 σ2 → Flow { f with r := fun _ => false } o2 ∧ Frame (W ++ (N1 ++ N2)) σ1 σ2 ∧
        ∃ L2 e2, Ext { f with r := fun _ => false } o2 L1 L2 ∧ (∀ x, e2 x → e1 x) ∧ (∀ x, e1 x → e2 x ∨ x ∈ N2) ∧ Inv L2 e2 σ2 ∧
          (o2 = .ok → ∀ x ∈ N2, ¬ e2 x) := by
      intro o2 σ2 h
      obtain ⟨f2, g2, L2, e2, r⟩ := h2 L1 e1 σ1 _ _ i1 hs2 hn2 h
      exact ⟨f2, by simpa [List.append_assoc] using g2, L2, e2, r⟩
    cases h' with
    | endStop h h3 h4 =>
      obtain ⟨f2, _⟩ := hlater h
      exact absurd (f2.isErr h3) h4
    | endErr h h' =>
      rename_i σ2 o2
      obtain ⟨f2, g2, L2, e2, x2, b1, b2, i2, b3⟩ := hlater h
      obtain ⟨f3, g3, L3, x3, i3⟩ := hg L2 e2 _ _ _ i2 (fun x hx => by
        rw [g2.nv]
        have := hs2 x hx
        exact ⟨this.1, fun h => this.2.1 (b1 x h)⟩) h'
      have ho2 : o2 = .ok := f3.isOk
      subst ho2
      have g3' : Frame (W ++ (N1 ++ N2)) σ2 σ' := g3.mono (fun x hx => by
        rcases List.mem_append.1 hx with h | h <;> simp [h]) (by rw [g2.nv, g1.nv]; exact hWN)
      have x12 : Ext { f with r := fun _ => false } .err L L2 := x1.trans x2 (fun h => ⟨Fl.lk_ok h, h⟩) (fun h => ⟨h, h⟩)
      have x13 : Ext { f with r := fun _ => false } .err L L3 := x12.trans x3 (fun h => ⟨h, by simp [Fl.lk]⟩) (fun h => ⟨h, rfl⟩)
      refine ⟨Flow.errF hf, gfr1.trans (g2.trans g3'), { L3 with leak := fun a => L3.leak a ∨ ∃ x ∈ N1 ++ N2, Owns σ' x a },
        hlk x13 (fun a h => Or.inl h) ?_,
        done_of_leakU i3 (fun x hx => by rw [g3.nv, g2.nv, g1.nv]; exact (hn x hx).1) (fun x hx => ?_)
          (fun x hx => a1 x (b1 x hx))⟩
      · rfl
      · rcases b2 x (hee1 x hx) with h | h
        · exact h
        · exact absurd hx (hn x (by simp [h])).2
    | endOk h h' =>
      rename_i σ2
      obtain ⟨f2, g2, L2, e2, x2, b1, b2, i2, b3⟩ := hlater h
      have x12 : Ext { f with r := fun _ => false } .ok L L2 := x1.trans x2 (fun h => ⟨h, h⟩) (fun h => ⟨h, h⟩)
      have he2 : ∀ x ∈ N1 ++ N2, ¬ e2 x := by
        intro x hx
        rcases List.mem_append.1 hx with h | h
        · exact fun h' => a3 rfl x h (b1 x h')
        · exact b3 rfl x h
      have hee : e2 = e := by
        funext x
        refine propext ⟨fun hx => ?_, fun hx => ?_⟩
        · rcases a1 x (b1 x hx) with h | h
          · exact h
          · exact absurd hx (he2 x h)
        · rcases b2 x (hee1 x hx) with h | h
          · exact h
          · exact absurd hx (hn x (by simp [h])).2
      subst hee
      have hs3 : ∀ x, x ∈ V ∨ x ∈ W ++ (N1 ++ N2) → x < σ.nv ∧ ¬ e2 x := by
        intro x hx
        rcases hx with hx | hx
        · exact ⟨(hs x (.inl hx)).1, (hs x (.inl hx)).2.1⟩
        · rcases List.mem_append.1 hx with h | h
          · exact ⟨(hs x (.inr h)).1, (hs x (.inr h)).2.1⟩
          · exact hn x h
      have gfr := gfr1.trans g2
      unfold Heap.cleanup at h'
      cases h' with
      | endOk h5 h6 =>
        obtain ⟨f3, g3, L3, x3, i3⟩ := hu L2 e2 σ2 _ _ i2 (by rw [gfr.nv]; exact hs3) h5
        obtain ⟨rfl, g4, i4, n4⟩ := hd L3 e2 _ _ _ i3 (by rw [g3.nv, gfr.nv]; exact hs3) h6
        have x13 : Ext { f with r := fun _ => false } .ok L L3 := x12.trans x3 (fun h => ⟨h, h⟩) (fun h => ⟨h, h⟩)
        exact ⟨Flow.okF, gfr.trans (g3.trans g4), L3, ⟨x13.1, x13.2, x13.3, x13.4⟩, done_of_null i4 n4⟩
      | endErr h5 h6 =>
        obtain ⟨f3, g3, L3, x3, i3⟩ := hu L2 e2 σ2 _ _ i2 (by rw [gfr.nv]; exact hs3) h5
        obtain ⟨rfl, g4, i4, n4⟩ := hd L3 e2 _ _ _ i3 (by rw [g3.nv, gfr.nv]; exact hs3) h6
        have x13 : Ext { f with r := fun _ => false } .err L L3 := x12.trans x3 (fun h => ⟨Fl.lk_ok h, h⟩) (fun h => ⟨h, h⟩)
        exact ⟨Flow.errF hf, gfr.trans (g3.trans g4), L3, ⟨x13.1, x13.2, x13.3, x13.4⟩, done_of_null i4 n4⟩
      | endStop h5 h6 h7 =>
        obtain ⟨f3, _⟩ := hu L2 e2 σ2 _ _ i2 (by rw [gfr.nv]; exact hs3) h5
        exact absurd (f3.isErr h6) h7

end Verif.Heap
