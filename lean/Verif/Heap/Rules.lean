/-
Rules: which programs keep the invariant of `Heap/Inv.lean`.
-/
import Verif.Heap.Inv

namespace Verif.Heap
open Cmd

/-! ### Primitive operations -/

section prim
variable {L : Led} {e : Nat → Prop} {σ σ' : St} {x : Nat} {o : Out} {W : List Nat} {f : Fl}

theorem Flow.okF : Flow f .ok := ⟨by simp, by simp, by simp⟩

theorem Flow.errF (h : f.er = true) : Flow f .err := ⟨by simp, fun _ => h, by simp⟩

theorem owns_iff {m : Mpi} (hm : σ.vars x = some m) (a : Nat) : Owns σ x a ↔ m.p = some a := by
  constructor
  · rintro ⟨m', h, hp⟩
    rw [hm] at h
    cases h
    exact hp
  · exact fun h => ⟨m, hm, h⟩

/-- Releasing the block of a variable. -/
theorem free_step (hI : Inv L e σ) (hx : x < σ.nv) (hex : ¬ e x) (hW : x ∈ W) :
    ∃ σ', freeP σ x = (.ok, σ') ∧ Inv L e σ' ∧ Frame W σ σ' ∧ Null σ' x ∧ (∀ y, y ≠ x → σ'.vars y = σ.vars y) := by
  obtain ⟨m, hl, hm, h0, h1⟩ := hI.look hx hex
  cases hp : m.p with
  | none =>
    refine ⟨σ.setVar x (some .null), by simp only [freeP, hl, hp], ?_⟩
    have := Inv.upd (σ' := σ.setVar x (some .null)) (m' := .null) (L' := L) (W := W) hI hx hex hW
      (fun y => rfl) rfl (Nat.le_refl _) (fun _ _ _ => rfl) (fun _ => rfl) (by simp [Mpi.null])
      (fun _ h => h) (fun _ h => h) ?_
    · exact ⟨this.1, this.2, by simp [Null, St.setVar], fun y hy => by simp [St.setVar, hy]⟩
    · intro a ha h _
      rw [owns_iff hm, hp] at h
      rcases h with h | h
      · cases h
      · exact absurd (show a < σ.nh from ha) (Nat.not_lt.2 h)
  | some a =>
    obtain ⟨ha, hlive, hsz⟩ := h1 a hp
    have hacc : σ.acc a m.n = true := acc_of ha hlive (Nat.le_of_eq hsz.symm)
    refine ⟨((σ.wipe a m.n).release a).setVar x (some .null), by simp only [freeP, hl, hp, hacc, if_true], ?_⟩
    have := Inv.upd (σ' := ((σ.wipe a m.n).release a).setVar x (some .null)) (m' := .null) (L' := L) (W := W)
      hI hx hex hW (fun y => rfl) rfl (Nat.le_refl _) ?_ (fun _ => rfl) (by simp [Mpi.null])
      (fun _ h => h) (fun _ h => h) ?_
    · exact ⟨this.1, this.2, by simp [Null, St.setVar], fun y hy => by
        simp [St.setVar, hy, St.release, St.wipe, St.setBlk]⟩
    · intro b _ hb
      rw [owns_iff hm, hp] at hb
      have : b ≠ a := fun h => hb (by rw [h])
      simp [St.setVar, St.release, St.wipe, St.setBlk, this]
    · intro b hb h _
      rw [owns_iff hm, hp] at h
      rcases h with h | h
      · cases h
        left
        refine ⟨by simp [St.setVar, St.release, St.wipe, St.setBlk], .inr ?_⟩
        intro j hj
        simp only [St.setVar, St.release, St.wipe, St.setBlk, if_pos] at hj ⊢
        rw [if_pos (by omega)]
      · exact absurd (show b < σ.nh from hb) (Nat.not_lt.2 h)

/-- A new block takes the place of the old one. -/
theorem replace_step {m : Mpi} (hI : Inv L e σ) (hx : x < σ.nv) (hex : ¬ e x) (hW : x ∈ W) (hm : σ.vars x = some m)
    {k c : Nat} (hc : c ≤ m.n) :
    ∃ σ', replace σ x m k c = (.ok, σ') ∧ Inv L e σ' ∧ Frame W σ σ' := by
  obtain ⟨m2, _, hm2, h0, h1⟩ := hI.look hx hex
  rw [hm] at hm2
  cases hm2
  cases hp : m.p with
  | none =>
    refine ⟨(σ.alloc k).setVar x (some ⟨k, some σ.nh⟩), by simp only [replace, hp], ?_⟩
    refine Inv.upd (m' := ⟨k, some σ.nh⟩) (L' := L) (W := W) hI hx hex hW
      (fun y => rfl) rfl (Nat.le_succ _) ?_ (fun h => by cases h) ?_ (fun _ h => h) (fun _ h => h) ?_
    · intro b hb _
      simp [St.setVar, St.alloc, Nat.ne_of_lt hb]
    · intro a ha
      cases ha
      simp [St.setVar, St.alloc]
    · intro a ha h hne
      rw [owns_iff hm, hp] at h
      rcases h with h | h
      · cases h
      · have : a < σ.nh + 1 := ha
        exact absurd (show (some σ.nh) = some a by rw [show a = σ.nh by omega]) hne
  | some a =>
    obtain ⟨ha, hlive, hsz⟩ := h1 a hp
    have hacc : σ.acc a m.n = true := acc_of ha hlive (Nat.le_of_eq hsz.symm)
    have hacc' : σ.acc a c = true := acc_of ha hlive (by omega)
    have hne : a ≠ σ.nh := Nat.ne_of_lt ha
    have hrep : replace σ x m k c = (.ok, (((((σ.alloc k).setBlk σ.nh
        ⟨k, true, fun j => if j < c then (σ.heap a).data j else 0⟩).wipe a m.n).release a).setVar x
        (some ⟨k, some σ.nh⟩))) := by
      simp only [replace, hp, hacc, hacc', Bool.and_self, if_true]
    refine ⟨_, hrep, ?_⟩
    refine Inv.upd (m' := ⟨k, some σ.nh⟩) (L' := L) (W := W) hI hx hex hW
      (fun y => rfl) rfl (Nat.le_succ _) ?_ (fun h => by cases h) ?_ (fun _ h => h) (fun _ h => h) ?_
    · intro b hb hbo
      rw [owns_iff hm, hp] at hbo
      have h1 : b ≠ a := fun h => hbo (by rw [h])
      simp [St.setVar, St.release, St.wipe, St.setBlk, St.alloc, h1, Nat.ne_of_lt hb]
    · intro b hb
      cases hb
      simp [St.setVar, St.release, St.wipe, St.setBlk, St.alloc, hne.symm]
    · intro b hb h hnb
      rw [owns_iff hm, hp] at h
      rcases h with h | h
      · cases h
        left
        refine ⟨by simp [St.setVar, St.release, St.wipe, St.setBlk], .inr ?_⟩
        intro j hj
        simp only [St.setVar, St.release, St.wipe, St.setBlk, St.alloc, if_pos, if_neg hne] at hj ⊢
        rw [if_pos (by omega)]
      · have : b < σ.nh + 1 := hb
        exact absurd (show (some σ.nh) = some b by rw [show b = σ.nh by omega]) hnb

theorem grow_step (hI : Inv L e σ) (hx : x < σ.nv) (hex : ¬ e x) (hW : x ∈ W) (nb : Nat) (al : Bool) :
    ∃ o σ', growP σ x nb al = (o, σ') ∧ (o = .ok ∨ o = .err) ∧ Inv L e σ' ∧ Frame W σ σ' := by
  obtain ⟨m, hl, hm, h0, h1⟩ := hI.look hx hex
  simp only [growP, hl]
  split
  · exact ⟨_, _, rfl, .inr rfl, hI, Frame.refl _ _⟩
  · split
    · split
      · obtain ⟨σ', h, h2, h3⟩ := replace_step hI hx hex hW hm (k := nb) (c := m.n) (Nat.le_refl _)
        exact ⟨_, _, h, .inl rfl, h2, h3⟩
      · exact ⟨_, _, rfl, .inr rfl, hI, Frame.refl _ _⟩
    · exact ⟨_, _, rfl, .inl rfl, hI, Frame.refl _ _⟩

theorem shrink_step (hI : Inv L e σ) (hx : x < σ.nv) (hex : ¬ e x) (hW : x ∈ W) (nb i : Nat) (al : Bool) :
    ∃ o σ', shrinkP σ x nb i al = (o, σ') ∧ (o = .ok ∨ o = .err) ∧ Inv L e σ' ∧ Frame W σ σ' := by
  obtain ⟨m, hl, hm, h0, h1⟩ := hI.look hx hex
  simp only [shrinkP, hl]
  split
  · exact grow_step hI hx hex hW nb al
  · cases hp : m.p with
    | none => have := h0 hp; omega
    | some a =>
      simp only
      split
      · obtain ⟨σ', h, h2, h3⟩ := replace_step hI hx hex hW hm
          (k := max (max 1 (min i m.n)) nb) (c := max (max 1 (min i m.n)) nb) (by omega)
        exact ⟨_, _, h, .inl rfl, h2, h3⟩
      · exact ⟨_, _, rfl, .inr rfl, hI, Frame.refl _ _⟩

theorem get_step (hI : Inv L e σ) (hx : x < σ.nv) (hex : ¬ e x) : getP σ x = (.ok, σ) := by
  obtain ⟨m, hl, hm, h0, h1⟩ := hI.look hx hex
  simp only [getP, hl]
  cases hp : m.p with
  | none => simp only [h0 hp, if_true]
  | some a =>
    obtain ⟨ha, hlive, hsz⟩ := h1 a hp
    simp only [acc_of ha hlive (Nat.le_of_eq hsz.symm), if_true]

theorem set_step (hI : Inv L e σ) (hx : x < σ.nv) (hex : ¬ e x) (hW : x ∈ W) (w : Nat → Nat) :
    ∃ σ', setP σ x w = (.ok, σ') ∧ Inv L e σ' ∧ Frame W σ σ' := by
  obtain ⟨m, hl, hm, h0, h1⟩ := hI.look hx hex
  simp only [setP, hl]
  cases hp : m.p with
  | none => simp only [h0 hp, if_true]; exact ⟨_, rfl, hI, Frame.refl _ _⟩
  | some a =>
    obtain ⟨ha, hlive, hsz⟩ := h1 a hp
    simp only [acc_of ha hlive (Nat.le_of_eq hsz.symm), if_true]
    refine ⟨_, rfl, ?_⟩
    refine Inv.upd (m' := m) (L' := L) (W := W) hI hx hex hW ?_ rfl (Nat.le_refl _) ?_ h0 ?_
      (fun _ h => h) (fun _ h => h) ?_
    · intro y
      by_cases h : y = x
      · simp [h, St.setBlk, hm]
      · simp [h, St.setBlk]
    · intro b _ hb
      rw [owns_iff hm, hp] at hb
      have : b ≠ a := fun h => hb (by rw [h])
      simp [St.setBlk, this]
    · intro b hb
      rw [hp] at hb
      cases hb
      refine ⟨ha, ?_, ?_, .inl ((owns_iff hm _).2 hp)⟩
      · simp [St.setBlk, hlive]
      · simp [St.setBlk, hsz]
    · intro b hb h hne
      rw [owns_iff hm] at h
      rcases h with h | h
      · exact absurd h hne
      · exact absurd (show b < σ.nh from hb) (Nat.not_lt.2 h)

/-- `init` of a variable that holds nothing. -/
theorem init_step (hI : Inv L e σ) (hx : x < σ.nv) (hex : ¬ e x) (hW : x ∈ W) (hn : Null σ x) :
    Inv L e (σ.setVar x (some .null)) ∧ Frame W σ (σ.setVar x (some .null)) := by
  refine Inv.upd (m' := .null) (L' := L) (W := W) hI hx hex hW (fun y => rfl) rfl (Nat.le_refl _)
    (fun _ _ _ => rfl) (fun _ => rfl) (by simp [Mpi.null]) (fun _ h => h) (fun _ h => h) ?_
  intro a ha h _
  rw [owns_iff hn] at h
  rcases h with h | h
  · cases h
  · exact absurd (show a < σ.nh from ha) (Nat.not_lt.2 h)

/-- `init` of a variable: what it holds is lost. -/
theorem drop_step (hI : Inv L e σ) (hx : x < σ.nv) (hex : ¬ e x) (hW : x ∈ W) :
    Inv { L with leak := fun a => L.leak a ∨ Owns σ x a } e (σ.setVar x (some .null)) ∧
    Frame W σ (σ.setVar x (some .null)) := by
  refine Inv.upd (m' := .null) (W := W) hI hx hex hW (fun y => rfl) rfl (Nat.le_refl _)
    (fun _ _ _ => rfl) (fun _ => rfl) (by simp [Mpi.null]) (fun _ h => .inl h) (fun _ h => h) ?_
  intro a ha h _
  rcases h with h | h
  · right
    refine ⟨.inr h, ?_⟩
    obtain ⟨m, hm, hp⟩ := h
    obtain ⟨m2, hm2, _, h2⟩ := hI.ini x hx hex
    rw [hm] at hm2
    cases hm2
    exact (h2 a hp).2.1
  · exact absurd (show a < σ.nh from ha) (Nat.not_lt.2 h)

/-- Releasing without erasing. -/
theorem rawFree_step (hI : Inv L e σ) (hx : x < σ.nv) (hex : ¬ e x) (hW : x ∈ W) :
    ∃ σ', rawFreeP σ x = (.ok, σ') ∧ Inv { L with dirty := fun a => L.dirty a ∨ Owns σ x a } e σ' ∧ Frame W σ σ' ∧
      Null σ' x := by
  obtain ⟨m, hl, hm, h0, h1⟩ := hI.look hx hex
  cases hp : m.p with
  | none =>
    refine ⟨σ.setVar x (some .null), by simp only [rawFreeP, hl, hp], ?_⟩
    have := Inv.upd (σ' := σ.setVar x (some .null)) (m' := .null)
      (L' := { L with dirty := fun a => L.dirty a ∨ Owns σ x a }) (W := W) hI hx hex hW
      (fun y => rfl) rfl (Nat.le_refl _) (fun _ _ _ => rfl) (fun _ => rfl) (by simp [Mpi.null])
      (fun _ h => h) (fun _ h => .inl h) ?_
    · exact ⟨this.1, this.2, by simp [Null, St.setVar]⟩
    · intro a ha h _
      rw [owns_iff hm, hp] at h
      rcases h with h | h
      · cases h
      · exact absurd (show a < σ.nh from ha) (Nat.not_lt.2 h)
  | some a =>
    obtain ⟨ha, hlive, hsz⟩ := h1 a hp
    have hacc : σ.acc a 0 = true := acc_of ha hlive (Nat.zero_le _)
    refine ⟨(σ.release a).setVar x (some .null), by simp only [rawFreeP, hl, hp, hacc, if_true], ?_⟩
    have := Inv.upd (σ' := (σ.release a).setVar x (some .null)) (m' := .null)
      (L' := { L with dirty := fun a => L.dirty a ∨ Owns σ x a }) (W := W)
      hI hx hex hW (fun y => rfl) rfl (Nat.le_refl _) ?_ (fun _ => rfl) (by simp [Mpi.null])
      (fun _ h => h) (fun _ h => .inl h) ?_
    · exact ⟨this.1, this.2, by simp [Null, St.setVar]⟩
    · intro b _ hb
      rw [owns_iff hm, hp] at hb
      have : b ≠ a := fun h => hb (by rw [h])
      simp [St.setVar, St.release, St.setBlk, this]
    · intro b hb h _
      rcases h with h | h
      · left
        refine ⟨?_, .inl (.inr h)⟩
        rw [owns_iff hm, hp] at h
        cases h
        simp [St.setVar, St.release, St.setBlk]
      · exact absurd (show b < σ.nh from hb) (Nat.not_lt.2 h)

theorem swap_step {y : Nat} (hI : Inv L e σ) (hx : x < σ.nv) (hex : ¬ e x) (hW : x ∈ W)
    (hy : y < σ.nv) (hey : ¬ e y) (hW' : y ∈ W) :
    ∃ σ', swapP σ x y = (.ok, σ') ∧ Inv L e σ' ∧ Frame W σ σ' := by
  obtain ⟨m, hl, hm, h0, h1⟩ := hI.look hx hex
  obtain ⟨m', hl', hm', h0', h1'⟩ := hI.look hy hey
  refine ⟨(σ.setVar x (some m')).setVar y (some m), by simp only [swapP, hl, hl'], ?_⟩
  -- the permutation of the variables
  have key : ∀ z a, Owns ((σ.setVar x (some m')).setVar y (some m)) z a ↔
      Owns σ (if z = y then x else if z = x then y else z) a := by
    intro z a
    unfold Owns
    simp only [St.setVar]
    by_cases h1 : z = y
    · simp only [if_pos h1, hm]
    · by_cases h2 : z = x
      · simp only [if_neg h1, if_pos h2, hm']
      · simp only [if_neg h1, if_neg h2]
  have kn : ∀ z, z < σ.nv → (if z = y then x else if z = x then y else z) < σ.nv := by
    intro z hz
    split
    · exact hx
    · split
      · exact hy
      · exact hz
  have ke : ∀ z, ¬ e z → ¬ e (if z = y then x else if z = x then y else z) := by
    intro z hz
    split
    · exact hex
    · split
      · exact hey
      · exact hz
  have kk : ∀ z, (fun z => if z = y then x else if z = x then y else z)
      ((fun z => if z = y then x else if z = x then y else z) z) = z := by
    intro z
    by_cases h1 : z = y
    · subst h1
      by_cases h2 : x = z
      · simp [h2]
      · simp [h2]
    · by_cases h2 : z = x
      · simp [h2]
      · simp [h1, h2]
  refine ⟨⟨hI.exl, ?_, ?_, ?_, hI.wip⟩, ⟨rfl, Nat.le_refl _, ?_, fun _ _ _ => rfl, ?_, fun _ _ h => h⟩⟩
  · intro z hz hez
    simp only [St.setVar]
    by_cases h1 : z = y
    · exact ⟨m, by simp only [if_pos h1], h0, by assumption⟩
    · by_cases h2 : z = x
      · exact ⟨m', by simp only [if_neg h1, if_pos h2], h0', h1'⟩
      · obtain ⟨mz, h3, h4, h5⟩ := hI.ini z hz hez
        exact ⟨mz, by simp only [if_neg h1, if_neg h2, h3], h4, h5⟩
  · intro z z' a hz hz' hez hez' h1 h2
    rw [key] at h1 h2
    have := hI.inj _ _ a (kn z hz) (kn z' hz') (ke z hez) (ke z' hez') h1 h2
    rw [← kk z, ← kk z']
    exact congrArg (fun z => if z = y then x else if z = x then y else z) this
  · intro a ha hla
    rcases hI.own a ha hla with h | ⟨z, hz, hez, ho⟩
    · exact .inl h
    · refine .inr ⟨_, kn z hz, ke z hez, ?_⟩
      rw [key]
      have := kk z
      simp only at this
      rw [this]
      exact ho
  · intro z _ hzW
    have h1 : z ≠ y := fun h => hzW (h ▸ hW')
    have h2 : z ≠ x := fun h => hzW (h ▸ hW)
    simp [St.setVar, h1, h2]
  · intro z hz a ho
    rw [key] at ho
    refine .inl ⟨_, ?_, ho⟩
    split
    · exact hW
    · split
      · exact hW'
      · exact hz

end prim

/-! ### Rules -/

section rules
variable {f g : Fl} {V W : List Nat} {x y : Nat} {c d h : Cmd}

theorem Good.skip : Good f V W .skip := by
  intro L e σ o σ' hI _ hr
  cases hr
  exact ⟨Flow.okF, Frame.refl _ _, L, Ext.refl _ _ _, hI⟩

theorem Good.fail (hf : f.er = true) : Good f V W .fail := by
  intro L e σ o σ' hI _ hr
  cases hr
  exact ⟨Flow.errF hf, Frame.refl _ _, L, Ext.refl _ _ _, hI⟩

theorem Good.ret {b : Bool} (hf : f.r b = true) : Good f V W (.ret b) := by
  intro L e σ o σ' hI _ hr
  cases hr
  exact ⟨⟨by simp, by simp, fun b' h => by cases h; exact hf⟩, Frame.refl _ _, L, Ext.refl _ _ _, hI⟩

theorem Good.free (hx : x ∈ W) : Good f V W (free x) := by
  intro L e σ o σ' hI hs hr
  cases hr with
  | prim ch hst =>
    obtain ⟨σ1, h1, h2, h3, _⟩ := free_step hI (hs x (.inr hx)).1 (hs x (.inr hx)).2 hx
    simp only [step, h1, Prod.mk.injEq] at hst
    obtain ⟨rfl, rfl⟩ := hst
    exact ⟨Flow.okF, h3, L, Ext.refl _ _ _, h2⟩

theorem Good.rawFree (hf : f.d = true) (hx : x ∈ W) : Good f V W (rawFree x) := by
  intro L e σ o σ' hI hs hr
  cases hr with
  | prim ch hst =>
    obtain ⟨σ1, h1, h2, h3, _⟩ := rawFree_step hI (hs x (.inr hx)).1 (hs x (.inr hx)).2 hx
    simp only [step, h1, Prod.mk.injEq] at hst
    obtain ⟨rfl, rfl⟩ := hst
    refine ⟨Flow.okF, h3, _, ?_, h2⟩
    exact ⟨fun _ h => h, fun _ h => .inl h, fun _ _ h => h, fun h => by rw [hf] at h; cases h⟩

theorem Good.grow (hf : f.er = true) (hx : x ∈ W) : Good f V W (grow x) := by
  intro L e σ o σ' hI hs hr
  cases hr with
  | prim ch hst =>
    obtain ⟨o1, σ1, h1, ho, h2, h3⟩ := grow_step hI (hs x (.inr hx)).1 (hs x (.inr hx)).2 hx ch.nb ch.alloc
    simp only [step, h1, Prod.mk.injEq] at hst
    obtain ⟨rfl, rfl⟩ := hst
    refine ⟨?_, h3, L, Ext.refl _ _ _, h2⟩
    rcases ho with rfl | rfl
    · exact Flow.okF
    · exact Flow.errF hf

theorem Good.shrink (hf : f.er = true) (hx : x ∈ W) : Good f V W (shrink x) := by
  intro L e σ o σ' hI hs hr
  cases hr with
  | prim ch hst =>
    obtain ⟨o1, σ1, h1, ho, h2, h3⟩ := shrink_step hI (hs x (.inr hx)).1 (hs x (.inr hx)).2 hx ch.nb ch.i ch.alloc
    simp only [step, h1, Prod.mk.injEq] at hst
    obtain ⟨rfl, rfl⟩ := hst
    refine ⟨?_, h3, L, Ext.refl _ _ _, h2⟩
    rcases ho with rfl | rfl
    · exact Flow.okF
    · exact Flow.errF hf

theorem Good.get (hx : x ∈ V ∨ x ∈ W) : Good f V W (get x) := by
  intro L e σ o σ' hI hs hr
  cases hr with
  | prim ch hst =>
    simp only [step, get_step hI (hs x hx).1 (hs x hx).2, Prod.mk.injEq] at hst
    obtain ⟨rfl, rfl⟩ := hst
    exact ⟨Flow.okF, Frame.refl _ _, L, Ext.refl _ _ _, hI⟩

theorem Good.setW (hx : x ∈ W) : Good f V W (setW x) := by
  intro L e σ o σ' hI hs hr
  cases hr with
  | prim ch hst =>
    obtain ⟨σ1, h1, h2, h3⟩ := set_step hI (hs x (.inr hx)).1 (hs x (.inr hx)).2 hx ch.w
    simp only [step, h1, Prod.mk.injEq] at hst
    obtain ⟨rfl, rfl⟩ := hst
    exact ⟨Flow.okF, h3, L, Ext.refl _ _ _, h2⟩

theorem Good.swap (hx : x ∈ W) (hy : y ∈ W) : Good f V W (swap x y) := by
  intro L e σ o σ' hI hs hr
  cases hr with
  | prim ch hst =>
    obtain ⟨σ1, h1, h2, h3⟩ := swap_step hI (hs x (.inr hx)).1 (hs x (.inr hx)).2 hx
      (hs y (.inr hy)).1 (hs y (.inr hy)).2 hy
    simp only [step, h1, Prod.mk.injEq] at hst
    obtain ⟨rfl, rfl⟩ := hst
    exact ⟨Flow.okF, h3, L, Ext.refl _ _ _, h2⟩

/-- `init` of a variable may lose its block. -/
theorem Good.drop (hf : f.lo = true) (hx : x ∈ W) : Good f V W (init x) := by
  intro L e σ o σ' hI hs hr
  cases hr with
  | prim ch hst =>
    obtain ⟨h1, h2⟩ := drop_step hI (hs x (.inr hx)).1 (hs x (.inr hx)).2 hx
    simp only [step, initP, if_pos (hs x (.inr hx)).1, Prod.mk.injEq] at hst
    obtain ⟨rfl, rfl⟩ := hst
    refine ⟨Flow.okF, h2, _, ?_, h1⟩
    refine ⟨fun _ h => .inl h, fun _ h => h, fun h => ?_, fun _ _ h => h⟩
    simp [Fl.lk, hf] at h

theorem Good.seq (hc : Good f V W c) (hd : Good f V W d) :
    Good f V W (.seq c d) := by
  intro L e σ o σ' hI hs hr
  cases hr with
  | seqOk h1 h2 =>
    obtain ⟨f1, g1, L1, x1, i1⟩ := hc L e σ _ _ hI hs h1
    obtain ⟨f2, g2, L2, x2, i2⟩ := hd L1 e _ _ _ i1 (by rw [g1.nv]; exact hs) h2
    refine ⟨f2, g1.trans g2, L2, x1.trans x2 (fun h => ⟨Fl.lk_ok h, h⟩) (fun h => ⟨h, h⟩), i2⟩
  | seqStop h1 ho => exact hc L e σ _ _ hI hs h1

theorem Good.alt (hc : Good f V W c) (hd : Good f V W d) : Good f V W (.alt c d) := by
  intro L e σ o σ' hI hs hr
  cases hr with
  | altL h => exact hc L e σ _ _ hI hs h
  | altR h => exact hd L e σ _ _ hI hs h

theorem Good.ifNull (hx : x ∈ V ∨ x ∈ W) (hc : Good f V W c) (hd : Good f V W d) :
    Good f V W (.ifNull x c d) := by
  intro L e σ o σ' hI hs hr
  cases hr with
  | ifNullT _ _ h => exact hc L e σ _ _ hI hs h
  | ifNullF _ _ h => exact hd L e σ _ _ hI hs h
  | ifNullU hn =>
    obtain ⟨m, hl, _⟩ := hI.look (hs x hx).1 (hs x hx).2
    rw [hl] at hn
    cases hn

theorem Good.loop (hc : Good f V W c) : Good f V W (.loop c) := by
  intro L e σ o σ' hI hs hr
  generalize hcc : Cmd.loop c = cc at hr
  induction hr generalizing L with
  | loopEnd => exact ⟨Flow.okF, Frame.refl _ _, L, Ext.refl _ _ _, hI⟩
  | loopGo h1 h2 _ ih2 =>
    cases hcc
    obtain ⟨f1, g1, L1, x1, i1⟩ := hc L e _ _ _ hI hs h1
    obtain ⟨f2, g2, L2, x2, i2⟩ := ih2 L1 i1 (by rw [g1.nv]; exact hs) rfl
    refine ⟨f2, g1.trans g2, L2, x1.trans x2 (fun h => ⟨Fl.lk_ok h, h⟩) (fun h => ⟨h, h⟩), i2⟩
  | loopStop h1 ho _ => cases hcc; exact hc L e _ _ _ hI hs h1
  | _ => cases hcc

/-- The return code is not looked at. -/
theorem Good.ign (hl : g.le = true → f.lo = true) (hl' : g.lo = true → f.lo = true)
    (hd : g.d = true → f.d = true) (hr' : ∀ b, g.r b = true → f.r b = true) (hc : Good g V W c) : Good f V W (.ign c) := by
  intro L e σ o σ' hI hs hr
  cases hr with
  | ign h =>
    rename_i o1
    obtain ⟨f1, g1, L1, x1, i1⟩ := hc L e σ _ _ hI hs h
    have nn : ∀ {a b : Bool}, (a = true → b = true) → b = false → a = false := by
      intro a b; cases a <;> cases b <;> simp
    refine ⟨⟨?_, ?_, ?_⟩, g1, L1, x1.mono ?_ (nn hd), i1⟩
    · have := f1.ub; revert this; cases o1 <;> simp [Out.ignore]
    · cases o1 <;> simp [Out.ignore]
    · intro b hb
      have : o1 = .ret b := by revert hb; cases o1 <;> simp [Out.ignore]
      exact hr' b (f1.ret b this)
    · intro h
      have hlo : f.lo = false := by simp only [Fl.lk, Bool.or_eq_false_iff] at h; exact h.1
      simp [Fl.lk, nn hl' hlo, nn hl hlo]

/-- A function: an early return is over. -/
theorem Good.fn (hc : Good { f with r := fun _ => true } V W c) (he : f.er = true) : Good f V W (.fn c) := by
  intro L e σ o σ' hI hs hr
  cases hr with
  | fn h =>
    rename_i o1
    obtain ⟨f1, g1, L1, x1, i1⟩ := hc L e σ _ _ hI hs h
    refine ⟨⟨?_, fun _ => he, ?_⟩, g1, L1, x1.mono ?_ id, i1⟩
    · have := f1.ub; revert this; cases o1 <;> simp [Out.leave]
      rename_i b; cases b <;> simp
    · intro b hb
      revert hb
      cases o1 <;> simp [Out.leave]
      rename_i b'; cases b' <;> simp
    · intro h
      cases o1 with
      | ret b => cases b <;> exact h
      | _ => exact h

theorem Good.mono {V' W' : List Nat} (hc : Good g V' W' c) (hW : ∀ x ∈ W', x ∈ W) (hV : ∀ x ∈ V', x ∈ V ∨ x ∈ W)
    (hr : ∀ b, g.r b = true → f.r b = true) (he : g.er = true → f.er = true) (hlo : g.lo = true → f.lo = true)
    (hle : g.le = true → f.le = true) (hd : g.d = true → f.d = true) : Good f V W c := by
  intro L e σ o σ' hI hs hr'
  have nn : ∀ {a b : Bool}, (a = true → b = true) → b = false → a = false := by
    intro a b; cases a <;> cases b <;> simp
  obtain ⟨f1, g1, L1, x1, i1⟩ := hc L e σ _ _ hI (fun x hx => hs x (by
    rcases hx with h | h
    · exact hV x h
    · exact .inr (hW x h))) hr'
  refine ⟨⟨f1.ub, fun h => he (f1.err h), fun b h => hr b (f1.ret b h)⟩,
    g1.mono hW (fun x hx => (hs x (.inr hx)).1), L1, x1.mono ?_ (nn hd), i1⟩
  intro h
  simp only [Fl.lk, Bool.or_eq_false_iff, Bool.and_eq_false_iff] at h ⊢
  exact ⟨nn hlo h.1, h.2.imp id (nn hle)⟩

end rules

end Verif.Heap
