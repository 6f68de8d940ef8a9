/-
Rules for functions with local integers: `mbedtls_mpi_init` of all of them, the body, the clean-up.
-/
import Verif.Heap.Rules

namespace Verif.Heap
open Cmd

variable {f g : Fl} {V W N N1 : List Nat} {x y : Nat} {c d h g' : Cmd} {L : Led} {e : Nat → Prop} {σ σ' : St}

/-- What is required of the locals `N` at the end of their scope: nothing that they own is still needed. -/
def Done (L : Led) (e : Nat → Prop) (N : List Nat) (σ : St) : Prop :=
  ∃ e' : Nat → Prop, (∀ x, e x → e' x) ∧ (∀ x, e' x → e x ∨ x ∈ N) ∧ Inv L e' σ ∧ ∀ x ∈ N, e' x ∨ Null σ x

/-- The body of a function with the locals `N`, which have been initialised. -/
def Scoped (f : Fl) (V W N : List Nat) (c : Cmd) : Prop :=
  ∀ (L : Led) (e : Nat → Prop) (σ : St) (o : Out) (σ' : St), Inv L e σ →
    (∀ x, x ∈ V ∨ x ∈ W → x < σ.nv ∧ ¬ e x ∧ x ∉ N) → (∀ x ∈ N, x < σ.nv ∧ ¬ e x ∧ Null σ x) → Run c σ o σ' →
    Flow f o ∧ Frame (W ++ N) σ σ' ∧ ∃ L', Ext f o L L' ∧ Done L' e N σ'

theorem done_of_null (hI : Inv L e σ) (h : ∀ x ∈ N, Null σ x) : Done L e N σ :=
  ⟨e, fun _ h => h, fun _ h => .inl h, hI, fun x hx => .inr (h x hx)⟩

/-- The blocks of the locals are lost. -/
theorem done_of_leak (hI : Inv L e σ) (h : ∀ x ∈ N, x < σ.nv) :
    Done { L with leak := fun a => L.leak a ∨ ∃ x ∈ N, Owns σ x a } e N σ := by
  refine ⟨fun x => e x ∨ x ∈ N, fun _ h => .inl h, fun _ h => h, ⟨?_, ?_, ?_, ?_, ?_⟩, fun x hx => .inl (.inr hx)⟩
  · rintro x (hx | hx)
    · exact hI.exl x hx
    · exact h x hx
  · intro x hx he
    exact hI.ini x hx fun h => he (.inl h)
  · intro x y a hx hy he he'
    exact hI.inj x y a hx hy (fun h => he (.inl h)) (fun h => he' (.inl h))
  · intro a ha hl
    rcases hI.own a ha hl with h | ⟨x, hx, he, ho⟩
    · exact .inl (.inl h)
    · by_cases hN : x ∈ N
      · exact .inl (.inr ⟨x, hN, ho⟩)
      · exact .inr ⟨x, hx, fun h => h.elim he hN, ho⟩
  · exact hI.wip

/-- All initialisations. -/
theorem run_initAll : ∀ (xs : List Nat) (σ : St) (o : Out) (σ' : St), (∀ x ∈ xs, x < σ.nv) →
    Run (initAll xs) σ o σ' →
    o = .ok ∧ σ'.nv = σ.nv ∧ σ'.nh = σ.nh ∧ σ'.heap = σ.heap ∧
      ∀ y, σ'.vars y = if y ∈ xs then some .null else σ.vars y := by
  intro xs
  induction xs with
  | nil =>
    intro σ o σ' _ hr
    cases hr
    exact ⟨rfl, rfl, rfl, rfl, fun y => by simp⟩
  | cons x xs ih =>
    intro σ o σ' hx hr
    have hlt := hx x (by simp)
    have h1 : ∀ {o σ1}, Run (init x) σ o σ1 → o = .ok ∧ σ1 = σ.setVar x (some .null) := by
      intro o σ1 h
      cases h with
      | prim ch hst =>
        simp only [step, initP, if_pos hlt, Prod.mk.injEq] at hst
        exact ⟨hst.1.symm, hst.2.symm⟩
    simp only [initAll, List.map_cons, seqL] at hr
    cases hr with
    | seqOk h2 h3 =>
      obtain ⟨_, rfl⟩ := h1 h2
      obtain ⟨k1, k2, k3, k4, k5⟩ := ih (σ.setVar x (some .null)) _ _ (fun y hy => hx y (by simp [hy])) h3
      refine ⟨k1, k2, k3, k4, fun y => ?_⟩
      rw [k5 y]
      by_cases hy : y ∈ xs
      · simp [hy]
      · by_cases hyx : y = x
        · simp [hyx, St.setVar]
        · simp [hy, hyx, St.setVar]
    | seqStop h2 ho => exact absurd (h1 h2).1 ho

/-- A scope with locals that are all initialised. -/
theorem Good.locals {k : Nat} {N : Nat → List Nat} {c : Nat → Cmd} (hN : ∀ b x, x ∈ N b ↔ b ≤ x ∧ x < b + k)
    (hc : ∀ b, (∀ x, x ∈ V ∨ x ∈ W → x < b) → Scoped f V W (N b) (c b)) :
    Good f V W (.locals k fun b => .seq (initAll (N b)) (c b)) := by
  intro L e σ o σ' hI hs hr
  cases hr with
  | locals hr =>
    have hin : ∀ x ∈ N σ.nv, x < (σ.push k).nv := fun x hx => ((hN _ _).1 hx).2
    cases hr with
    | seqStop h1 ho => exact absurd (run_initAll _ _ _ _ hin h1).1 ho
    | seqOk h1 h2 =>
      rename_i σ2 σ1
      obtain ⟨_, n1, n2, n3, n4⟩ := run_initAll _ _ _ _ hin h1
      have n1' : σ1.nv = σ.nv + k := n1
      have n2' : σ1.nh = σ.nh := n2
      have n3' : σ1.heap = σ.heap := n3
      have hnull : ∀ x ∈ N σ.nv, Null σ1 x := fun x hx => by rw [Null, n4, if_pos hx]
      have hvar : ∀ x, x < σ.nv → σ1.vars x = σ.vars x := by
        intro x hx
        have h1 : x ∉ N σ.nv := fun h => by have := ((hN _ _).1 h).1; omega
        have h2 : ¬ (σ.nv ≤ x ∧ x < σ.nv + k) := by omega
        rw [n4, if_neg h1]
        simp only [St.push, if_neg h2]
      have hown : ∀ x a, x < σ.nv → (Owns σ1 x a ↔ Owns σ x a) := by
        intro x a hx
        unfold Owns
        rw [hvar x hx]
      have hnone : ∀ x ∈ N σ.nv, ∀ a, ¬ Owns σ1 x a := by
        rintro x hx a ⟨m, hm, hp⟩
        rw [show σ1.vars x = some .null from hnull x hx] at hm
        cases hm
        cases hp
      have hcase : ∀ x, x < σ1.nv → x < σ.nv ∨ x ∈ N σ.nv := by
        intro x hx
        by_cases h : x < σ.nv
        · exact .inl h
        · exact .inr ((hN _ _).2 ⟨by omega, by omega⟩)
      have hI1 : Inv L e σ1 := by
        refine ⟨?_, ?_, ?_, ?_, ?_⟩
        · intro x hx; have := hI.exl x hx; omega
        · intro x hx he
          rcases hcase x hx with h | h
          · rw [hvar x h, n2', n3']; exact hI.ini x h he
          · exact ⟨.null, hnull x h, fun _ => rfl, fun a ha => by cases ha⟩
        · intro x y a hx hy he he' h1 h2
          rcases hcase x hx with hx' | hx'
          · rcases hcase y hy with hy' | hy'
            · exact hI.inj x y a hx' hy' he he' ((hown x a hx').1 h1) ((hown y a hy').1 h2)
            · exact absurd h2 (hnone y hy' a)
          · exact absurd h1 (hnone x hx' a)
        · intro a ha hl
          rw [n2'] at ha
          rw [n3'] at hl
          rcases hI.own a ha hl with h | ⟨x, hx, he, ho⟩
          · exact .inl h
          · exact .inr ⟨x, by omega, he, (hown x a hx).2 ho⟩
        · intro a ha
          rw [n2'] at ha
          rw [n3']
          exact hI.wip a ha
      have hlow : ∀ x, x ∈ V ∨ x ∈ W → x ∉ N σ.nv := fun x hx h => by
        have := (hs x hx).1
        have := ((hN _ _).1 h).1
        omega
      obtain ⟨f1, g1, L1, x1, e', he1, he2, i1, hd⟩ := hc σ.nv (fun x hx => (hs x hx).1) L e σ1 _ _ hI1
        (fun x hx => ⟨by have := (hs x hx).1; omega, (hs x hx).2, hlow x hx⟩)
        (fun x hx => ⟨by have := ((hN _ _).1 hx).2; omega, fun h => by
          have := hI.exl x h; have := ((hN _ _).1 hx).1; omega, hnull x hx⟩) h2
      have hnv2 : σ2.nv = σ.nv + k := g1.nv.trans n1'
      have hne : ∀ x, x < σ.nv → ¬ e x → ¬ e' x := by
        intro x hx he h
        rcases he2 x h with h | h
        · exact he h
        · have := ((hN _ _).1 h).1; omega
      refine ⟨f1, ⟨rfl, ?_, ?_, ?_, ?_, ?_⟩, L1, x1, ⟨hI.exl, ?_, ?_, ?_, i1.wip⟩⟩
      · have := g1.nh; rw [n2'] at this; exact this
      · intro x hx hxW
        have h1 : x ∉ W ++ N σ.nv := by
          simp only [List.mem_append, not_or]
          exact ⟨hxW, fun h => by have := ((hN _ _).1 h).1; omega⟩
        show σ2.vars x = _
        rw [g1.vars x (by omega) h1, hvar x hx]
      · intro a ha hno
        show σ2.heap a = _
        rw [g1.heap a (by omega), n3']
        intro x hx
        rcases List.mem_append.1 hx with h | h
        · rw [hown x a (hs x (.inr h)).1]; exact hno x h
        · exact hnone x h a
      · intro x hx a ho
        rcases g1.src x (by simp [hx]) a ho with ⟨y, hy, hyo⟩ | hge
        · rcases List.mem_append.1 hy with h | h
          · exact .inl ⟨y, h, (hown y a (hs y (.inr h)).1).1 hyo⟩
          · exact absurd hyo (hnone y h a)
        · exact .inr (by rw [← n2']; exact hge)
      · intro a ha hl
        exact g1.dead a (by omega) (by rw [n3']; exact hl)
      · intro x hx he
        exact i1.ini x (by have : x < σ.nv := hx; omega) (hne x hx he)
      · intro x y a hx hy he he' h1 h2
        have hx' : x < σ.nv := hx
        have hy' : y < σ.nv := hy
        exact i1.inj x y a (by omega) (by omega) (hne x hx he) (hne y hy he') h1 h2
      · intro a ha hl
        rcases i1.own a ha hl with h | ⟨x, hx, he, ho⟩
        · exact .inl h
        · right
          have hxn : x < σ.nv := by
            rcases hcase x (by rw [n1', ← hnv2]; exact hx) with h | h
            · exact h
            · rcases hd x h with h' | h'
              · exact absurd h' he
              · obtain ⟨m, hm, hp⟩ := ho
                rw [show σ2.vars x = some .null from h'] at hm
                cases hm
                cases hp
          exact ⟨x, hxn, fun h => he (he1 x h), ho⟩

/-! ### Clean-up -/

/-- A clean-up: it cannot fail and leaves the variables in `N` without blocks. -/
def Nulling (V W N : List Nat) (c : Cmd) : Prop :=
  ∀ (L : Led) (e : Nat → Prop) (σ : St) (o : Out) (σ' : St), Inv L e σ →
    (∀ x, x ∈ V ∨ x ∈ W → x < σ.nv ∧ ¬ e x) → Run c σ o σ' →
    o = .ok ∧ Frame W σ σ' ∧ Inv L e σ' ∧ ∀ x ∈ N, Null σ' x

theorem null_keep {W : List Nat} (hf : Frame W σ σ') (hx : x < σ.nv) (hW : x ∉ W) (hn : Null σ x) : Null σ' x := by
  unfold Null; rw [hf.vars x hx hW]; exact hn

theorem nulling_freeAll : ∀ (xs : List Nat), (∀ x ∈ xs, x ∈ W) → Nulling V W xs (freeAll xs) := by
  intro xs
  induction xs with
  | nil =>
    intro _ L e σ o σ' hI hs hr
    cases hr
    exact ⟨rfl, Frame.refl _ _, hI, fun x hx => by cases hx⟩
  | cons x xs ih =>
    intro hx L e σ o σ' hI hs hr
    have hxW := hx x (by simp)
    obtain ⟨σ1, h1, h2, h3, h4, h5⟩ := free_step hI (hs x (.inr hxW)).1 (hs x (.inr hxW)).2 hxW
    have hfr : ∀ {o σ2}, Run (free x) σ o σ2 → o = .ok ∧ σ2 = σ1 := by
      intro o σ2 h
      cases h with
      | prim ch hst =>
        simp only [step, h1, Prod.mk.injEq] at hst
        exact ⟨hst.1.symm, hst.2.symm⟩
    simp only [freeAll, List.map_cons, seqL] at hr
    cases hr with
    | seqStop hr ho => exact absurd (hfr hr).1 ho
    | seqOk hr hr' =>
      obtain ⟨_, rfl⟩ := hfr hr
      have := ih (fun y hy => hx y (by simp [hy])) L e _ _ _ h2 (by rw [h3.nv]; exact hs) hr'
      obtain ⟨k1, k2, k3, k4⟩ := this
      refine ⟨k1, h3.trans k2, k3, ?_⟩
      intro y hy
      by_cases hyx : y ∈ xs
      · exact k4 y hyx
      · have : y = x := by simpa [hyx] using hy
        subst this
        -- later releases do not touch `y`
        have : ∀ (zs : List Nat) (τ : St) (o : Out) (τ' : St), y ∉ zs → Null τ y → Run (freeAll zs) τ o τ' → Null τ' y := by
          intro zs
          induction zs with
          | nil => intro τ o τ' _ hn hr; cases hr; exact hn
          | cons z zs ihz =>
            intro τ o τ' hz hn hr
            have hfree : ∀ {o τ1}, Run (free z) τ o τ1 → Null τ1 y := by
              intro o τ1 h
              have hzy : y ≠ z := fun h => hz (by simp [h])
              cases h with
              | prim ch hst =>
                simp only [step, freeP] at hst
                split at hst
                · cases hst; exact hn
                · split at hst
                  · cases hst; simpa [Null, St.setVar, hzy] using hn
                  · split at hst
                    · cases hst; simpa [Null, St.setVar, hzy, St.release, St.wipe, St.setBlk] using hn
                    · cases hst; exact hn
            simp only [freeAll, List.map_cons, seqL] at hr
            cases hr with
            | seqStop h _ => exact hfree h
            | seqOk h h' => exact ihz _ _ _ (fun h => hz (by simp [h])) (hfree h) h'
        exact this xs _ _ _ hyx h4 hr'

theorem Nulling.sub {N N' : List Nat} (h : Nulling V W N' c) (hs : ∀ x ∈ N, x ∈ N') : Nulling V W N c :=
  fun L e σ o σ' hI hv hr =>
    let ⟨h1, h2, h3, h4⟩ := h L e σ o σ' hI hv hr
    ⟨h1, h2, h3, fun x hx => h4 x (hs x hx)⟩

theorem nulling_free (hx : x ∈ W) : Nulling V W [x] (free x) := by
  intro L e σ o σ' hI hs hr
  obtain ⟨σ1, h1, h2, h3, h4, h5⟩ := free_step hI (hs x (.inr hx)).1 (hs x (.inr hx)).2 hx
  cases hr with
  | prim ch hst =>
    simp only [step, h1, Prod.mk.injEq] at hst
    obtain ⟨rfl, rfl⟩ := hst
    exact ⟨rfl, h3, h2, by simpa using h4⟩

/-- A total program: no error, no early return, nothing lost. -/
abbrev total : Fl := { er := false }

theorem Nulling.seq (hc : Good total V W c) (hd : Nulling V W N d) : Nulling V W N (.seq c d) := by
  intro L e σ o σ' hI hs hr
  have key : ∀ {o σ1}, Run c σ o σ1 → o = .ok ∧ Frame W σ σ1 ∧ Inv L e σ1 := by
    intro o σ1 h
    obtain ⟨f1, g1, L1, x1, i1⟩ := hc L e σ _ _ hI hs h
    refine ⟨?_, g1, ?_⟩
    · cases o with
      | ok => rfl
      | err => exact absurd (f1.err rfl) (by simp)
      | ret b => exact absurd (f1.ret b rfl) (by simp)
      | ub => exact absurd rfl f1.ub
    · have e1 : L1.leak = L.leak := funext fun a => propext ⟨x1.leak' (by simp [Fl.lk]) a, x1.leak a⟩
      have e2 : L1.dirty = L.dirty := funext fun a => propext ⟨x1.dirty' rfl a, x1.dirty a⟩
      have : L1 = L := by cases L1; cases L; simp only at e1 e2; subst e1 e2; rfl
      rw [← this]
      exact i1
  cases hr with
  | seqStop h ho => exact absurd (key h).1 ho
  | seqOk h h' =>
    obtain ⟨_, g1, i1⟩ := key h
    obtain ⟨k1, k2, k3, k4⟩ := hd L e _ _ _ i1 (by rw [g1.nv]; exact hs) h'
    exact ⟨k1, g1.trans k2, k3, k4⟩

/-- As `Good`; if the program succeeds, then the variables in `N` hold no blocks. -/
def GoodNull (f : Fl) (V W N : List Nat) (c : Cmd) : Prop :=
  Good f V W c ∧ ∀ (L : Led) (e : Nat → Prop) (σ : St) (σ' : St), Inv L e σ →
    (∀ x, x ∈ V ∨ x ∈ W → x < σ.nv ∧ ¬ e x) → Run c σ .ok σ' → ∀ x ∈ N, Null σ' x

theorem Nulling.good (hc : Nulling V W N c) : Good f V W c := by
  intro L e σ o σ' hI hs hr
  obtain ⟨rfl, k2, k3, k4⟩ := hc L e _ _ _ hI hs hr
  exact ⟨Flow.okF, k2, L, Ext.refl _ _ _, k3⟩

theorem Nulling.goodNull (hc : Nulling V W N c) : GoodNull f V W N c :=
  ⟨hc.good, fun L e _ _ hI hs hr => (hc L e _ _ _ hI hs hr).2.2.2⟩

theorem GoodNull.right (hc : Good f V W c) (hd : GoodNull f V W N d) : GoodNull f V W N (.seq c d) := by
  refine ⟨hc.seq hd.1, ?_⟩
  intro L e σ σ' hI hs hr
  cases hr with
  | seqStop h ho => exact absurd rfl ho
  | seqOk h h' =>
    obtain ⟨f1, g1, L1, x1, i1⟩ := hc L e σ _ _ hI hs h
    exact hd.2 L1 e _ _ i1 (by rw [g1.nv]; exact hs) h'

/-- `c` empties `N`, `d` empties `N1` and writes nothing else. -/
theorem GoodNull.keep (hc : GoodNull f V W N c) (hd : Nulling V N1 N1 d) (hN : ∀ x ∈ N, x ∈ W) (hN1 : ∀ x ∈ N1, x ∈ W) :
    GoodNull f V W (N ++ N1) (.seq c d) := by
  refine ⟨hc.1.seq (hd.good.mono hN1 (fun x hx => .inl hx) (fun _ h => h) (fun h => h) (fun h => h) (fun h => h)
    (fun h => h)), ?_⟩
  intro L e σ σ' hI hs hr
  cases hr with
  | seqStop h ho => exact absurd rfl ho
  | seqOk h h' =>
    obtain ⟨f1, g1, L1, x1, i1⟩ := hc.1 L e σ _ _ hI hs h
    have hn := hc.2 L e _ _ hI hs h
    obtain ⟨k1, k2, k3, k4⟩ := hd L1 e _ _ _ i1 (by
      rw [g1.nv]
      intro x hx
      exact hs x (hx.imp id (hN1 x))) h'
    intro x hx
    by_cases h1 : x ∈ N1
    · exact k4 x h1
    · have hxN : x ∈ N := by simpa [h1] using hx
      exact null_keep k2 (by rw [g1.nv]; exact (hs x (.inr (hN x hxN))).1) h1 (hn x hxN)

theorem Good.onEnd (hc : Good { f with er := true } V W c) (hd : Good f V W d) (hg : Good { f with r := fun b => b && f.r true } V W h)
    (hf : f.er = true) :
    Good f V W (.onEnd c d h) := by
  intro L e σ o σ' hI hs hr
  cases hr with
  | endOk h1 h2 =>
    obtain ⟨f1, g1, L1, x1, i1⟩ := hc L e σ _ _ hI hs h1
    obtain ⟨f2, g2, L2, x2, i2⟩ := hd L1 e _ _ _ i1 (by rw [g1.nv]; exact hs) h2
    exact ⟨f2, g1.trans g2, L2, x1.trans x2 (fun h => ⟨Fl.lk_ok h, h⟩) (fun h => ⟨h, h⟩), i2⟩
  | endErr h1 h2 =>
    rename_i σ1 o2
    obtain ⟨f1, g1, L1, x1, i1⟩ := hc L e σ _ _ hI hs h1
    obtain ⟨f2, g2, L2, x2, i2⟩ := hg L1 e _ _ _ i1 (by rw [g1.nv]; exact hs) h2
    refine ⟨⟨?_, fun _ => hf, ?_⟩, g1.trans g2, L2, ?_, i2⟩
    · have := f2.ub; revert this; cases o2 <;> simp [Out.afterFail]
    · intro b hb
      have h1 : o2 = .ret b := by revert hb; cases o2 <;> simp [Out.afterFail]
      have h2 := f2.ret b h1
      simp only [Bool.and_eq_true] at h2
      rw [h2.1]
      exact h2.2
    · by_cases hr : ∃ b, o2 = .ret b
      · obtain ⟨b, rfl⟩ := hr
        cases b with
        | true =>
          refine x1.trans x2 (fun h => ⟨?_, h⟩) (fun h => ⟨h, h⟩)
          simpa [Fl.lk, Out.afterFail, Out.isErr] using h
        | false =>
          have := f2.ret false rfl
          simp at this
      · have : o2.afterFail = .err := by
          revert hr
          have := f2.ub
          cases o2 <;> simp_all [Out.afterFail]
        rw [this]
        refine x1.trans x2 (fun h => ⟨h, ?_⟩) (fun h => ⟨h, h⟩)
        simp only [Fl.lk, Bool.or_eq_false_iff, Bool.and_eq_false_iff, Out.isErr] at h ⊢
        refine ⟨h.1, .inr ?_⟩
        rcases h.2 with h | h
        · cases h
        · exact h
  | endStop h1 h2 h3 =>
    obtain ⟨f1, g1, L1, x1, i1⟩ := hc L e σ _ _ hI hs h1
    exact ⟨⟨f1.ub, fun h => absurd h h3, f1.ret⟩, g1, L1, ⟨x1.1, x1.2, x1.3, x1.4⟩, i1⟩

/-! ### Bodies of functions -/

/-- The part of a function before the clean-up of the locals `N`: when it leaves by a `return` that skips the
clean-up, then the locals hold nothing, or blocks may be lost. -/
def Body (f : Fl) (V W N : List Nat) (c : Cmd) : Prop :=
  Good f V (W ++ N) c ∧
  ∀ (L : Led) (e : Nat → Prop) (σ : St) (b : Bool) (σ' : St), Inv L e σ →
    (∀ x, x ∈ V ∨ x ∈ W ++ N → x < σ.nv ∧ ¬ e x) → (∀ x ∈ N, x ∉ W ∧ Null σ x) → Run c σ (.ret b) σ' →
    (∀ x ∈ N, Null σ' x) ∨ f.lk (.ret b) = true

theorem Body.main (h : Good { f with r := fun _ => false } V (W ++ N) c) : Body f V W N c := by
  refine ⟨?_, ?_⟩
  · intro L e σ o σ' hI hs hr
    obtain ⟨f1, g1, L1, x1, i1⟩ := h L e σ o σ' hI hs hr
    exact ⟨⟨f1.ub, f1.err, fun b hb => absurd (f1.ret b hb) (by simp)⟩, g1, L1, ⟨x1.1, x1.2, x1.3, x1.4⟩, i1⟩
  · intro L e σ b σ' hI hs _ hr
    obtain ⟨f1, _⟩ := h L e σ _ σ' hI hs hr
    exact absurd (f1.ret b rfl) (by simp)

theorem Body.leak (h : Good f V (W ++ N) c) (hl : ∀ b, f.r b = true → f.lk (.ret b) = true) : Body f V W N c := by
  refine ⟨h, ?_⟩
  intro L e σ b σ' hI hs _ hr
  obtain ⟨f1, _⟩ := h L e σ _ σ' hI hs hr
  exact .inr (hl b (f1.ret b rfl))

theorem Body.mono_r (h : Body g V W N c) (hr : ∀ b, g.r b = true → f.r b = true) (h1 : g.er = true → f.er = true := by exact id)
    (h2 : g.lo = f.lo := by rfl) (h3 : g.le = f.le := by rfl) (h4 : g.d = f.d := by rfl) : Body f V W N c := by
  refine ⟨h.1.mono (fun _ h => h) (fun _ h => .inl h) hr h1 (fun h => h2 ▸ h) (fun h => h3 ▸ h) (fun h => h4 ▸ h), ?_⟩
  intro L e σ b σ' hI hs hn hrun
  have := h.2 L e σ b σ' hI hs hn hrun
  simpa only [Fl.lk, h2, h3] using this

theorem mem_of_scope {V W N : List Nat} {P : Nat → Prop} (hs : ∀ x, x ∈ V ∨ x ∈ W ++ N → P x) :
    ∀ x, x ∈ V ∨ x ∈ W → P x := fun x hx => hs x (hx.imp id fun h => by simp [h])

theorem Good.more (h : Good f V W c) : Good f V (W ++ N) c :=
  h.mono (fun _ hx => by simp [hx]) (fun _ hx => .inl hx) (fun _ h => h) (fun h => h) (fun h => h) (fun h => h)
    (fun h => h)

theorem Body.pre (hc : Good f V W c) (hd : Body f V W N d) : Body f V W N (.seq c d) := by
  refine ⟨hc.more.seq hd.1, ?_⟩
  intro L e σ b σ' hI hs hn hr
  cases hr with
  | seqStop h ho =>
    obtain ⟨f1, g1, L1, x1, i1⟩ := hc L e σ _ _ hI (mem_of_scope hs) h
    exact .inl fun x hx => null_keep g1 (hs x (.inr (by simp [hx]))).1 (hn x hx).1 (hn x hx).2
  | seqOk h h' =>
    obtain ⟨f1, g1, L1, x1, i1⟩ := hc L e σ _ _ hI (mem_of_scope hs) h
    refine hd.2 L1 e _ b σ' i1 (by rw [g1.nv]; exact hs) ?_ h'
    exact fun x hx => ⟨(hn x hx).1, null_keep g1 (hs x (.inr (by simp [hx]))).1 (hn x hx).1 (hn x hx).2⟩

theorem Body.alt (hc : Body f V W N c) (hd : Body f V W N d) : Body f V W N (.alt c d) := by
  refine ⟨hc.1.alt hd.1, ?_⟩
  intro L e σ b σ' hI hs hn hr
  cases hr with
  | altL h => exact hc.2 L e σ b σ' hI hs hn h
  | altR h => exact hd.2 L e σ b σ' hI hs hn h

theorem Scoped.alt (hc : Scoped f V W N c) (hd : Scoped f V W N d) : Scoped f V W N (.alt c d) := by
  intro L e σ o σ' hI hs hn hr
  cases hr with
  | altL h => exact hc L e σ _ σ' hI hs hn h
  | altR h => exact hd L e σ _ σ' hI hs hn h

/-- A part before the locals are used. -/
theorem Scoped.pre (hc : Good f V W c) (hd : Scoped f V W N d) : Scoped f V W N (.seq c d) := by
  intro L e σ o σ' hI hs hn hr
  have hs' : ∀ x, x ∈ V ∨ x ∈ W → x < σ.nv ∧ ¬ e x := fun x hx => ⟨(hs x hx).1, (hs x hx).2.1⟩
  have hWN : ∀ x ∈ W ++ N, x < σ.nv := fun x hx => by
    rcases List.mem_append.1 hx with h | h
    · exact (hs x (.inr h)).1
    · exact (hn x h).1
  cases hr with
  | seqStop h ho =>
    obtain ⟨f1, g1, L1, x1, i1⟩ := hc L e σ _ _ hI hs' h
    exact ⟨f1, g1.mono (fun x hx => by simp [hx]) hWN, L1, x1, done_of_null i1 fun x hx =>
      null_keep g1 (hn x hx).1 (fun h => (hs x (.inr h)).2.2 hx) (hn x hx).2.2⟩
  | seqOk h h' =>
    obtain ⟨f1, g1, L1, x1, i1⟩ := hc L e σ _ _ hI hs' h
    obtain ⟨f2, g2, L2, x2, i2⟩ := hd L1 e _ _ σ' i1 (by rw [g1.nv]; exact hs) (fun x hx => by
      rw [g1.nv]
      exact ⟨(hn x hx).1, (hn x hx).2.1, null_keep g1 (hn x hx).1 (fun h => (hs x (.inr h)).2.2 hx) (hn x hx).2.2⟩) h'
    exact ⟨f2, (g1.mono (fun x hx => by simp [hx]) hWN).trans g2, L2,
      x1.trans x2 (fun h => ⟨Fl.lk_ok h, h⟩) (fun h => ⟨h, h⟩), i2⟩

/-- `c; cleanup: h; return`. -/
theorem Scoped.cleanup (hf : f.er = true) (hN : ∀ x ∈ N1, x ∈ N) (hc : Body f V W N1 c)
    (hh : Nulling V (W ++ N1) N1 h) : Scoped f V W N (cleanup c h) := by
  intro L e σ o σ' hI hs hn hr
  have hs1 : ∀ x, x ∈ V ∨ x ∈ W ++ N1 → x < σ.nv ∧ ¬ e x := by
    intro x hx
    rcases hx with hx | hx
    · exact ⟨(hs x (.inl hx)).1, (hs x (.inl hx)).2.1⟩
    · rcases List.mem_append.1 hx with h | h
      · exact ⟨(hs x (.inr h)).1, (hs x (.inr h)).2.1⟩
      · exact ⟨(hn x (hN x h)).1, (hn x (hN x h)).2.1⟩
  have hn1 : ∀ x ∈ N1, x ∉ W ∧ Null σ x := fun x hx =>
    ⟨fun h => (hs x (.inr h)).2.2 (hN x hx), (hn x (hN x hx)).2.2⟩
  have hfr : ∀ {σ'}, Frame (W ++ N1) σ σ' → Frame (W ++ N) σ σ' := fun h =>
    h.mono (fun x hx => by
      rcases List.mem_append.1 hx with h | h
      · simp [h]
      · simp [hN x h]) (fun x hx => by
        rcases List.mem_append.1 hx with h | h
        · exact (hs x (.inr h)).1
        · exact (hn x h).1)
  have hall : ∀ {σ'}, Frame (W ++ N1) σ σ' → (∀ x ∈ N1, Null σ' x) → ∀ x ∈ N, Null σ' x := by
    intro σ' hf h x hx
    by_cases h1 : x ∈ N1
    · exact h x h1
    · refine null_keep hf (hn x hx).1 ?_ (hn x hx).2.2
      simp only [List.mem_append, not_or]
      exact ⟨fun hW => (hs x (.inr hW)).2.2 hx, h1⟩
  unfold Heap.cleanup at hr
  cases hr with
  | endOk h1 h2 =>
    obtain ⟨f1, g1, L1, x1, i1⟩ := hc.1 L e σ _ _ hI hs1 h1
    obtain ⟨rfl, g2, i2, n2⟩ := hh L1 e _ _ _ i1 (by rw [g1.nv]; exact hs1) h2
    exact ⟨Flow.okF, hfr (g1.trans g2), L1, x1, done_of_null i2 (hall (g1.trans g2) n2)⟩
  | endErr h1 h2 =>
    obtain ⟨f1, g1, L1, x1, i1⟩ := hc.1 L e σ _ _ hI hs1 h1
    obtain ⟨rfl, g2, i2, n2⟩ := hh L1 e _ _ _ i1 (by rw [g1.nv]; exact hs1) h2
    exact ⟨Flow.errF hf, hfr (g1.trans g2), L1, x1, done_of_null i2 (hall (g1.trans g2) n2)⟩
  | endStop h1 h2 h3 =>
    obtain ⟨f1, g1, L1, x1, i1⟩ := hc.1 L e σ _ _ hI hs1 h1
    have : ∃ b, o = .ret b := by
      have := f1.ub
      cases o <;> simp_all
    obtain ⟨b, rfl⟩ := this
    rcases hc.2 L e σ b σ' hI hs1 hn1 h1 with hnn | hlk
    · exact ⟨f1, hfr g1, L1, x1, done_of_null i1 (hall g1 hnn)⟩
    · refine ⟨f1, hfr g1, _, ?_, done_of_leak i1 fun x hx => by rw [g1.nv]; exact (hn x hx).1⟩
      exact ⟨fun a h => .inl (x1.leak a h), x1.dirty, fun h => (by rw [hlk] at h; cases h), x1.dirty'⟩

/-- A handler after the scope of the locals. -/
theorem Scoped.onErr (hc : Scoped f V W N c) (hg : Good total V W g') : Scoped f V W N (.onEnd c .skip g') := by
  intro L e σ o σ' hI hs hn hr
  cases hr with
  | endOk h1 h2 => cases h2; exact hc L e σ _ _ hI hs hn h1
  | endStop h1 _ _ => exact hc L e σ _ _ hI hs hn h1
  | endErr h1 h2 =>
    obtain ⟨f1, g1, L1, x1, e', he1, he2, i1, hd⟩ := hc L e σ _ _ hI hs hn h1
    have hsc : ∀ x, x ∈ V ∨ x ∈ W → x < σ.nv ∧ ¬ e' x := by
      intro x hx
      refine ⟨(hs x hx).1, fun h => ?_⟩
      rcases he2 x h with h | h
      · exact (hs x hx).2.1 h
      · exact (hs x hx).2.2 h
    obtain ⟨f2, g2, L2, x2, i2⟩ := hg L1 e' _ _ _ i1 (by rw [g1.nv]; exact hsc) h2
    rename_i o2
    have ho2 : o2 = .ok := by
      have h1 := f2.ub
      have h2 := f2.err
      have h3 := f2.ret
      cases o2 <;> simp_all
    subst ho2
    refine ⟨f1, g1.trans (g2.mono (fun x hx => by simp [hx]) fun x hx => ?_), L2, ?_, e', he1, he2, i2, ?_⟩
    · rw [g1.nv]
      rcases List.mem_append.1 hx with h | h
      · exact (hs x (.inr h)).1
      · exact (hn x h).1
    · exact x1.trans x2 (fun h => ⟨h, by simp [Fl.lk]⟩) (fun h => ⟨h, rfl⟩)
    · intro x hx
      rcases hd x hx with h | h
      · exact .inl h
      · exact .inr (null_keep g2 (by rw [g1.nv]; exact (hn x hx).1) (fun h => (hs x (.inr h)).2.2 hx) h)

/-- A function that leaves without releasing its locals when it fails. -/
theorem Scoped.thrown (hc : GoodNull f V (W ++ N) N c) (hr : ∀ b, f.r b = true → f.lk (.ret b) = true)
    (he : f.er = true → f.lk .err = true) : Scoped f V W N c := by
  intro L e σ o σ' hI hs hn hrun
  have hs1 : ∀ x, x ∈ V ∨ x ∈ W ++ N → x < σ.nv ∧ ¬ e x := by
    intro x hx
    rcases hx with hx | hx
    · exact ⟨(hs x (.inl hx)).1, (hs x (.inl hx)).2.1⟩
    · rcases List.mem_append.1 hx with h | h
      · exact ⟨(hs x (.inr h)).1, (hs x (.inr h)).2.1⟩
      · exact ⟨(hn x h).1, (hn x h).2.1⟩
  obtain ⟨f1, g1, L1, x1, i1⟩ := hc.1 L e σ _ _ hI hs1 hrun
  by_cases ho : o = .ok
  · subst ho
    exact ⟨f1, g1, L1, x1, done_of_null i1 (hc.2 L e σ _ hI hs1 hrun)⟩
  · have hlk : f.lk o = true := by
      have h1 := f1.ub
      have h2 := f1.err
      have h3 := f1.ret
      cases o with
      | ok => exact absurd rfl ho
      | err => exact he (h2 rfl)
      | ret b => exact hr b (h3 b rfl)
      | ub => exact absurd rfl h1
    refine ⟨f1, g1, _, ?_, done_of_leak i1 fun x hx => by rw [g1.nv]; exact (hn x hx).1⟩
    exact ⟨fun a h => .inl (x1.leak a h), x1.dirty, fun h => (by rw [hlk] at h; cases h), x1.dirty'⟩

/-! ### Lists -/

theorem Good.seqL : ∀ {cs : List Cmd}, (∀ c ∈ cs, Good f V W c) → Good f V W (seqL cs)
  | [], _ => Good.skip
  | c :: cs, h => (h c (by simp)).seq (Good.seqL fun d hd => h d (by simp [hd]))

theorem Good.altL : ∀ {cs : List Cmd}, (∀ c ∈ cs, Good f V W c) → Good f V W (altL cs)
  | [], _ => Good.skip
  | [c], h => h c (by simp)
  | c :: d :: cs, h => (h c (by simp)).alt (Good.altL fun d hd => h d (by simp only [List.mem_cons]; exact .inr (by simpa using hd)))

theorem Good.freeAll {xs : List Nat} (h : ∀ x ∈ xs, x ∈ W) : Good f V W (freeAll xs) :=
  (nulling_freeAll xs h).good

end Verif.Heap
