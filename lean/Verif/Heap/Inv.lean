/-
The invariant of the storage of big integers, and rules for programs that keep it.
-/
import Verif.Heap.Lang

namespace Verif.Heap

/-- Variable `x` holds the address `a`. -/
def Owns (σ : St) (x a : Nat) : Prop := ∃ m, σ.vars x = some m ∧ m.p = some a

/-- Variable `x` is initialised and holds no block. -/
def Null (σ : St) (x : Nat) : Prop := σ.vars x = some .null

/-- Blocks that have been lost, and blocks that were released without being erased. -/
structure Led where
  leak : Nat → Prop
  dirty : Nat → Prop

/-- `e` is the set of the variables that own nothing (not yet initialised, or a second reference). -/
structure Inv (L : Led) (e : Nat → Prop) (σ : St) : Prop where
  exl : ∀ x, e x → x < σ.nv
  ini : ∀ x, x < σ.nv → ¬ e x → ∃ m, σ.vars x = some m ∧ (m.p = none → m.n = 0) ∧
    ∀ a, m.p = some a → a < σ.nh ∧ (σ.heap a).live = true ∧ (σ.heap a).size = m.n
  inj : ∀ x y a, x < σ.nv → y < σ.nv → ¬ e x → ¬ e y → Owns σ x a → Owns σ y a → x = y
  own : ∀ a, a < σ.nh → (σ.heap a).live = true → L.leak a ∨ ∃ x, x < σ.nv ∧ ¬ e x ∧ Owns σ x a
  wip : ∀ a, a < σ.nh → (σ.heap a).live = false → L.dirty a ∨ ∀ j, j < (σ.heap a).size → (σ.heap a).data j = 0

/-- Only the variables in `W`, and blocks that they own, are changed. -/
structure Frame (W : List Nat) (σ σ' : St) : Prop where
  nv : σ'.nv = σ.nv
  nh : σ.nh ≤ σ'.nh
  vars : ∀ x, x < σ.nv → x ∉ W → σ'.vars x = σ.vars x
  heap : ∀ a, a < σ.nh → (∀ x ∈ W, ¬ Owns σ x a) → σ'.heap a = σ.heap a
  src : ∀ x ∈ W, ∀ a, Owns σ' x a → (∃ y ∈ W, Owns σ y a) ∨ σ.nh ≤ a
  dead : ∀ a, a < σ.nh → (σ.heap a).live = false → (σ'.heap a).live = false

/-- What a program may do: return early (`r false`: with success, `r true`: with an error), fail, lose blocks when it succeeds, lose blocks when it fails, release
blocks without erasing them. -/
structure Fl where
  r : Bool → Bool := fun _ => false
  er : Bool := true
  lo : Bool := false
  le : Bool := false
  d : Bool := false

def Out.isErr : Out → Bool
  | .err => true
  | .ret b => b
  | _ => false

/-- Whether blocks may be lost with this outcome. -/
def Fl.lk (f : Fl) (o : Out) : Bool := f.lo || (o.isErr && f.le)

theorem Fl.lk_ok {f : Fl} {o : Out} (h : f.lk o = false) : f.lk .ok = false := by
  simp only [Fl.lk, Bool.or_eq_false_iff] at h
  simp [Fl.lk, Out.isErr, h.1]

structure Ext (f : Fl) (o : Out) (L L' : Led) : Prop where
  leak : ∀ a, L.leak a → L'.leak a
  dirty : ∀ a, L.dirty a → L'.dirty a
  leak' : f.lk o = false → ∀ a, L'.leak a → L.leak a
  dirty' : f.d = false → ∀ a, L'.dirty a → L.dirty a

structure Flow (f : Fl) (o : Out) : Prop where
  ub : o ≠ .ub
  err : o = .err → f.er = true
  ret : ∀ b, o = .ret b → f.r b = true

/-- The program may read the variables in `V` and `W` and write those in `W`. -/
def Good (f : Fl) (V W : List Nat) (c : Cmd) : Prop :=
  ∀ (L : Led) (e : Nat → Prop) (σ : St) (o : Out) (σ' : St), Inv L e σ →
    (∀ x, x ∈ V ∨ x ∈ W → x < σ.nv ∧ ¬ e x) → Run c σ o σ' →
    Flow f o ∧ Frame W σ σ' ∧ ∃ L', Ext f o L L' ∧ Inv L' e σ'

/-! ### Frames -/

theorem Frame.refl (W : List Nat) (σ : St) : Frame W σ σ :=
  ⟨rfl, Nat.le_refl _, fun _ _ _ => rfl, fun _ _ _ => rfl, fun x hx a h => .inl ⟨x, hx, h⟩, fun _ _ h => h⟩

theorem Frame.trans {W : List Nat} {σ σ1 σ2 : St} (h : Frame W σ σ1) (h' : Frame W σ1 σ2) : Frame W σ σ2 where
  nv := h'.nv.trans h.nv
  nh := Nat.le_trans h.nh h'.nh
  vars x hx hW := by rw [h'.vars x (by rw [h.nv]; exact hx) hW, h.vars x hx hW]
  heap a ha hW := by
    rw [h'.heap a (Nat.lt_of_lt_of_le ha h.nh), h.heap a ha hW]
    intro x hx ho
    rcases h.src x hx a ho with ⟨y, hy, hyo⟩ | hge
    · exact hW y hy hyo
    · omega
  src x hx a ho := by
    rcases h'.src x hx a ho with ⟨y, hy, hyo⟩ | hge
    · exact h.src y hy a hyo
    · exact .inr (Nat.le_trans h.nh hge)
  dead a ha hl := h'.dead a (Nat.lt_of_lt_of_le ha h.nh) (h.dead a ha hl)

/-- A larger set of variables, when those that are added are in scope and own nothing that is shared. -/
theorem Frame.mono {W W' : List Nat} {σ σ' : St} (h : Frame W σ σ') (hs : ∀ x ∈ W, x ∈ W')
    (hv : ∀ x ∈ W', x < σ.nv) : Frame W' σ σ' where
  nv := h.nv
  nh := h.nh
  vars x hx hW := h.vars x hx fun hx' => hW (hs x hx')
  heap a ha hW := h.heap a ha fun x hx => hW x (hs x hx)
  src x hx a ho := by
    by_cases hw : x ∈ W
    · rcases h.src x hw a ho with ⟨y, hy, hyo⟩ | hge
      · exact .inl ⟨y, hs y hy, hyo⟩
      · exact .inr hge
    · refine .inl ⟨x, hx, ?_⟩
      obtain ⟨m, hm, hp⟩ := ho
      exact ⟨m, by rw [← h.vars x (hv x hx) hw]; exact hm, hp⟩
  dead := h.dead

/-! ### Ledgers -/

theorem Ext.refl (f : Fl) (o : Out) (L : Led) : Ext f o L L :=
  ⟨fun _ h => h, fun _ h => h, fun _ _ h => h, fun _ _ h => h⟩

/-- After a first part with outcome `o1`, where `o1` loses nothing that the whole may not lose. -/
theorem Ext.trans {f g h : Fl} {o o1 o2 : Out} {L L1 L2 : Led} (h1 : Ext f o1 L L1) (h2 : Ext g o2 L1 L2)
    (hl : h.lk o = false → f.lk o1 = false ∧ g.lk o2 = false)
    (hd : h.d = false → f.d = false ∧ g.d = false) : Ext h o L L2 where
  leak a ha := h2.leak a (h1.leak a ha)
  dirty a ha := h2.dirty a (h1.dirty a ha)
  leak' hk a ha := h1.leak' (hl hk).1 a (h2.leak' (hl hk).2 a ha)
  dirty' hk a ha := h1.dirty' (hd hk).1 a (h2.dirty' (hd hk).2 a ha)

theorem Ext.mono {f h : Fl} {o o1 : Out} {L L1 : Led} (h1 : Ext f o1 L L1)
    (hl : h.lk o = false → f.lk o1 = false) (hd : h.d = false → f.d = false) : Ext h o L L1 where
  leak := h1.leak
  dirty := h1.dirty
  leak' hk := h1.leak' (hl hk)
  dirty' hk := h1.dirty' (hd hk)

/-! ### Changing one variable -/

theorem Inv.upd {L L' : Led} {e : Nat → Prop} {σ σ' : St} {x : Nat} {m' : Mpi} {W : List Nat} (hI : Inv L e σ)
    (hx : x < σ.nv) (hex : ¬ e x) (hW : x ∈ W)
    (hv : ∀ y, σ'.vars y = if y = x then some m' else σ.vars y) (hnv : σ'.nv = σ.nv) (hnh : σ.nh ≤ σ'.nh)
    (hold : ∀ a, a < σ.nh → ¬ Owns σ x a → σ'.heap a = σ.heap a)
    (hm0 : m'.p = none → m'.n = 0)
    (hm1 : ∀ a, m'.p = some a → a < σ'.nh ∧ (σ'.heap a).live = true ∧ (σ'.heap a).size = m'.n ∧
      (Owns σ x a ∨ σ.nh ≤ a))
    (hL : ∀ a, L.leak a → L'.leak a) (hD : ∀ a, L.dirty a → L'.dirty a)
    (hx' : ∀ a, a < σ'.nh → (Owns σ x a ∨ σ.nh ≤ a) → m'.p ≠ some a →
      ((σ'.heap a).live = false ∧ (L'.dirty a ∨ ∀ j, j < (σ'.heap a).size → (σ'.heap a).data j = 0)) ∨
      L'.leak a ∧ (σ'.heap a).live = true) :
    Inv L' e σ' ∧ Frame W σ σ' := by
  have hox : ∀ a, Owns σ' x a ↔ m'.p = some a := by
    intro a
    constructor
    · rintro ⟨m, hm, hp⟩
      rw [hv, if_pos rfl] at hm
      cases hm
      exact hp
    · intro hp
      exact ⟨m', by rw [hv, if_pos rfl], hp⟩
  have hoy : ∀ y a, y ≠ x → (Owns σ' y a ↔ Owns σ y a) := by
    intro y a hy
    unfold Owns
    rw [hv, if_neg hy]
  have hlt : ∀ y a, y < σ.nv → ¬ e y → Owns σ y a → a < σ.nh := by
    intro y a hy hey ⟨m, hm, hp⟩
    obtain ⟨m2, hm2, _, h2⟩ := hI.ini y hy hey
    rw [hm] at hm2
    cases hm2
    exact (h2 a hp).1
  -- other variables do not own what `x` owned
  have hsep : ∀ y a, y < σ.nv → ¬ e y → y ≠ x → Owns σ y a → ¬ Owns σ x a :=
    fun y a hy hey hne h1 h2 => hne (hI.inj y x a hy hx hey hex h1 h2)
  refine ⟨⟨?_, ?_, ?_, ?_, ?_⟩, ⟨hnv, hnh, ?_, ?_, ?_, ?_⟩⟩
  · intro y hy; rw [hnv]; exact hI.exl y hy
  · intro y hy hey
    rw [hnv] at hy
    by_cases h : y = x
    · subst h
      refine ⟨m', by rw [hv, if_pos rfl], hm0, fun a ha => ?_⟩
      have := hm1 a ha
      exact ⟨this.1, this.2.1, this.2.2.1⟩
    · obtain ⟨m, hm, h0, h1⟩ := hI.ini y hy hey
      refine ⟨m, by rw [hv, if_neg h]; exact hm, h0, fun a ha => ?_⟩
      obtain ⟨h2, h3, h4⟩ := h1 a ha
      rw [hold a h2 (hsep y a hy hey h ⟨m, hm, ha⟩)]
      exact ⟨Nat.lt_of_lt_of_le h2 hnh, h3, h4⟩
  · intro y z a hy hz hey hez h1 h2
    rw [hnv] at hy hz
    by_cases hyx : y = x
    · by_cases hzx : z = x
      · rw [hyx, hzx]
      · rw [hyx, hox] at h1
        rw [hoy z a hzx] at h2
        rcases (hm1 a h1).2.2.2 with h | h
        · exact absurd h (hsep z a hz hez hzx h2)
        · have := hlt z a hz hez h2; omega
    · rw [hoy y a hyx] at h1
      by_cases hzx : z = x
      · rw [hzx, hox] at h2
        rcases (hm1 a h2).2.2.2 with h | h
        · exact absurd h (hsep y a hy hey hyx h1)
        · have := hlt y a hy hey h1; omega
      · rw [hoy z a hzx] at h2
        exact hI.inj y z a hy hz hey hez h1 h2
  · intro a ha hl
    by_cases hp : m'.p = some a
    · exact .inr ⟨x, by rw [hnv]; exact hx, hex, (hox a).2 hp⟩
    · by_cases hc : Owns σ x a ∨ σ.nh ≤ a
      · rcases hx' a ha hc hp with h | h
        · rw [h.1] at hl; cases hl
        · exact .inl h.1
      · rw [not_or] at hc
        have hlt' : a < σ.nh := by omega
        rw [hold a hlt' hc.1] at hl
        rcases hI.own a hlt' hl with h | ⟨y, hy, hey, ho⟩
        · exact .inl (hL a h)
        · refine .inr ⟨y, by rw [hnv]; exact hy, hey, ?_⟩
          have hne : y ≠ x := by rintro rfl; exact hc.1 ho
          exact (hoy y a hne).2 ho
  · intro a ha hl
    by_cases hp : m'.p = some a
    · rw [(hm1 a hp).2.1] at hl; cases hl
    · by_cases hc : Owns σ x a ∨ σ.nh ≤ a
      · rcases hx' a ha hc hp with h | h
        · exact h.2
        · rw [h.2] at hl; cases hl
      · rw [not_or] at hc
        have hlt' : a < σ.nh := by omega
        rw [hold a hlt' hc.1] at hl ⊢
        rcases hI.wip a hlt' hl with h | h
        · exact .inl (hD a h)
        · exact .inr h
  · intro y hy hyW
    have hne : y ≠ x := by rintro rfl; exact hyW hW
    rw [hv, if_neg hne]
  · intro a ha hno
    exact hold a ha (hno x hW)
  · intro y hyW a ho
    by_cases h : y = x
    · rw [h, hox] at ho
      rcases (hm1 a ho).2.2.2 with h' | h'
      · exact .inl ⟨x, hW, h'⟩
      · exact .inr h'
    · rw [hoy y a h] at ho
      exact .inl ⟨y, hyW, ho⟩
  · intro a ha hl
    by_cases ho : Owns σ x a
    · obtain ⟨m, hm, hp⟩ := ho
      obtain ⟨m2, hm2, _, h2⟩ := hI.ini x hx hex
      rw [hm] at hm2
      cases hm2
      rw [(h2 a hp).2.1] at hl
      cases hl
    · rw [hold a ha ho]; exact hl

theorem Inv.look {L : Led} {e : Nat → Prop} {σ : St} (hI : Inv L e σ) {x : Nat} (hx : x < σ.nv) (hex : ¬ e x) :
    ∃ m, σ.look x = some m ∧ σ.vars x = some m ∧ (m.p = none → m.n = 0) ∧
    ∀ a, m.p = some a → a < σ.nh ∧ (σ.heap a).live = true ∧ (σ.heap a).size = m.n := by
  obtain ⟨m, h1, h2, h3⟩ := hI.ini x hx hex
  exact ⟨m, by simp only [St.look, if_pos hx, h1], h1, h2, h3⟩

theorem acc_of {σ : St} {a n : Nat} (h1 : a < σ.nh) (h2 : (σ.heap a).live = true) (h3 : n ≤ (σ.heap a).size) :
    σ.acc a n = true := by
  simp [St.acc, h1, h2, h3]

end Verif.Heap
