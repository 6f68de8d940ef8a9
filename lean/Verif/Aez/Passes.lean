import Verif.Aez.Lemmas

/-! What the two passes compute. -/

namespace Verif.Aez

open Verif

/-! ## Groups -/

/-- The groups cover the pairs `q`, …, `N - 1` in order. -/
def Consec : List Group → Nat → Nat → Prop
  | [], q, N => q = N
  | g :: gs, q, N => g.first = q ∧ Consec gs (q + g.count) N

/-- The offset of each pair. -/
def offOf : List Group → Nat → Block
  | [], _ => bzero
  | g :: gs, q => if q < g.first + g.count then g.off (q - g.first) else offOf gs q

theorem Consec.append {gs hs : List Group} {q M N : Nat} (h1 : Consec gs q M) (h2 : Consec hs M N) :
    Consec (gs ++ hs) q N := by
  induction gs generalizing q with
  | nil => cases h1; exact h2
  | cons g gs ih => exact ⟨h1.1, ih h1.2⟩

theorem consec_full (c : Ctx) (n a : Nat) :
    Consec ((List.range' a n).map fun g => (⟨8 * g, 8, groupOff c (base c g)⟩ : Group)) (8 * a) (8 * (a + n)) := by
  induction n generalizing a with
  | zero => rfl
  | succ n ih =>
    rw [List.range'_succ, List.map_cons]
    refine ⟨rfl, ?_⟩
    have := ih (a + 1)
    rwa [show 8 * (a + 1) = 8 * a + 8 by omega, show 8 * (a + 1 + n) = 8 * (a + (n + 1)) by omega] at this

theorem consec_tail (c : Ctx) (q rem : Nat) (o : Block) (h : rem < 256) (hd : rem % 32 = 0) :
    Consec (tailGroups c q rem o) q (q + rem / 32) := by
  obtain ⟨k, rfl, hk⟩ : ∃ k, rem = 32 * k ∧ k < 8 := ⟨rem / 32, by omega, by omega⟩
  match k, hk with
  | 0, _ | 1, _ | 2, _ | 3, _ | 4, _ | 5, _ | 6, _ | 7, _ => simp [tailGroups, Consec]

theorem consec_groups (c : Ctx) (bytes : Nat) (hd : bytes % 32 = 0) : Consec (groups c bytes) 0 (bytes / 32) := by
  unfold groups
  have h1 := consec_full c (bytes / 256) 0
  rw [← List.range_eq_range', Nat.mul_zero, Nat.zero_add] at h1
  refine h1.append ?_
  have h2 := consec_tail c (8 * (bytes / 256)) (bytes % 256) (base c (bytes / 256)) (by omega) (by omega)
  rwa [show 8 * (bytes / 256) + bytes % 256 / 32 = bytes / 32 by omega] at h2

section
variable (R : Block → Block)

/-! ## First pass -/

def sdat (al : Bool) (m : Mem) : Nat → UInt8 := if al then m.dst.data else m.src.data
def ssize (al : Bool) (m : Mem) : Nat := if al then m.dst.size else m.src.size

theorem ldS_ok {al : Bool} {m : Mem} {off : Nat} (h : off + 16 ≤ ssize al m) : ldS al m off = .ok (blk (sdat al m) off) := by
  cases al
  · exact ld_ok h
  · exact ld_ok h

theorem stD_ok {m : Mem} {off : Nat} (x : Block) (h : off + 16 ≤ m.dst.size) :
    stD m off x = .ok ⟨m.src, m.dst.size, put m.dst.data off x⟩ := by
  rw [stD, st_ok x h]; rfl

/-- The values of the first pass on the message `P`. -/
def W (c : Ctx) (off : Nat → Block) (P : Nat → UInt8) (j : Nat) : Block :=
  bx (F R c (bx (blk P (32 * j + 16)) (off j))) (blk P (32 * j))
def X (c : Ctx) (off : Nat → Block) (P : Nat → UInt8) (j : Nat) : Block :=
  bx (F R c (W R c off P j)) (blk P (32 * j + 16))

/-- What stays the same, and what was computed, when the first pass has handled the pairs below `q`. -/
structure One (c : Ctx) (off : Nat → Block) (al : Bool) (m0 : Mem) (q : Nat) (m : Mem) (sum : Block) : Prop where
  src : m.src = m0.src
  size : m.dst.size = m0.dst.size
  ev : ∀ j, j < q → blk m.dst.data (32 * j) = W R c off (sdat al m0) j
  od : ∀ j, j < q → blk m.dst.data (32 * j + 16) = X R c off (sdat al m0) j
  rest : ∀ i, 32 * q ≤ i → m.dst.data i = m0.dst.data i
  sum : sum = xsum (X R c off (sdat al m0)) q

theorem sdat_rest {al : Bool} {m0 m : Mem} (hs : m.src = m0.src) {off : Nat}
    (h : blk m.dst.data off = blk m0.dst.data off) : blk (sdat al m) off = blk (sdat al m0) off := by
  cases al
  · simp [sdat, hs]
  · exact h

theorem ssize_eq {al : Bool} {m0 m : Mem} (hs : m.src = m0.src) (hz : m.dst.size = m0.dst.size) : ssize al m = ssize al m0 := by
  cases al <;> simp [ssize, hs, hz]

theorem oneGroup_ok (c : Ctx) (off : Nat → Block) (al : Bool) (m0 : Mem) (g : Group) (n : Nat)
    (hn : 32 * (g.first + g.count) ≤ n) (hS : n ≤ ssize al m0) (hD : n ≤ m0.dst.size)
    (ho : ∀ k, k < g.count → g.off k = off (g.first + k)) (m : Mem) (sum : Block)
    (h : One R c off al m0 g.first m sum) :
    ∃ s', oneGroup R c al g (m, sum) = .ok s' ∧ One R c off al m0 (g.first + g.count) s'.1 s'.2 := by
  obtain ⟨m1, e1, hA⟩ := loopN_inv (oneA R c al g)
    (fun k m => m.src = m0.src ∧ m.dst.size = m0.dst.size ∧
      (∀ j, j < g.first + k → blk m.dst.data (32 * j) = W R c off (sdat al m0) j) ∧
      (∀ j, j < g.first → blk m.dst.data (32 * j + 16) = X R c off (sdat al m0) j) ∧
      (∀ j, g.first ≤ j → blk m.dst.data (32 * j + 16) = blk m0.dst.data (32 * j + 16)) ∧
      (∀ i, 32 * (g.first + k) ≤ i → m.dst.data i = m0.dst.data i)) g.count m
    ⟨h.src, h.size, h.ev, h.od, fun j hj => blk_congr fun i hi _ => h.rest i (by omega), h.rest⟩ (by
      rintro k hk m ⟨i1, i2, i3, i4, i5, i6⟩
      have hz := ssize_eq (al := al) i1 i2
      refine ⟨⟨m.src, m.dst.size, put m.dst.data (32 * (g.first + k)) (W R c off (sdat al m0) (g.first + k))⟩, ?_,
        i1, i2, ?_, ?_, ?_, ?_⟩
      · rw [oneA]
        simp only [ldS_ok (al := al) (m := m) (off := 32 * (g.first + k) + 16) (by omega),
          ldS_ok (al := al) (m := m) (off := 32 * (g.first + k)) (by omega), Res.bind_ok, aes4_eq]
        rw [stD_ok _ (by omega), ho k hk, sdat_rest i1 (i5 (g.first + k) (by omega)),
          sdat_rest i1 (blk_congr fun i hi _ => i6 i (by omega))]
        rfl
      · intro j hj
        by_cases hj' : j = g.first + k
        · subst hj'; exact blk_put_same _ _ _
        · show blk (put _ _ _) _ = _
          rw [blk_put_other (by omega)]; exact i3 j (by omega)
      · intro j hj
        show blk (put _ _ _) _ = _
        rw [blk_put_other (by omega)]; exact i4 j hj
      · intro j hj
        show blk (put _ _ _) _ = _
        rw [blk_put_other (by omega)]; exact i5 j hj
      · intro i hi
        show put _ _ _ i = _
        rw [put_other (by omega)]; exact i6 i (by omega))
  obtain ⟨a1, a2, a3, a4, a5, a6⟩ := hA
  obtain ⟨s2, e2, hB⟩ := loopN_inv (oneB R c al g)
    (fun k s => s.1.src = m0.src ∧ s.1.dst.size = m0.dst.size ∧
      (∀ j, j < g.first + g.count → blk s.1.dst.data (32 * j) = W R c off (sdat al m0) j) ∧
      (∀ j, j < g.first + k → blk s.1.dst.data (32 * j + 16) = X R c off (sdat al m0) j) ∧
      (∀ j, g.first + k ≤ j → blk s.1.dst.data (32 * j + 16) = blk m0.dst.data (32 * j + 16)) ∧
      (∀ i, 32 * (g.first + g.count) ≤ i → s.1.dst.data i = m0.dst.data i) ∧
      s.2 = xsum (X R c off (sdat al m0)) (g.first + k)) g.count (m1, sum)
    ⟨a1, a2, a3, a4, a5, a6, h.sum⟩ (by
      rintro k hk ⟨m, sum⟩ ⟨i1, i2, i3, i4, i5, i6, i7⟩
      simp only at i1 i2 i3 i4 i5 i6 i7
      have hz := ssize_eq (al := al) i1 i2
      refine ⟨(⟨m.src, m.dst.size, put m.dst.data (32 * (g.first + k) + 16) (X R c off (sdat al m0) (g.first + k))⟩,
        bx sum (X R c off (sdat al m0) (g.first + k))), ?_, i1, i2, ?_, ?_, ?_, ?_, ?_⟩
      · rw [oneB]
        simp only [ld_ok (b := m.dst) (off := 32 * (g.first + k)) (by omega),
          ldS_ok (al := al) (m := m) (off := 32 * (g.first + k) + 16) (by omega), Res.bind_ok, aes4_eq]
        rw [stD_ok _ (by omega), i3 _ (by omega), sdat_rest i1 (i5 (g.first + k) (by omega))]
        rfl
      · intro j hj
        show blk (put _ _ _) _ = _
        rw [blk_put_other (by omega)]; exact i3 j hj
      · intro j hj
        by_cases hj' : j = g.first + k
        · subst hj'; exact blk_put_same _ _ _
        · show blk (put _ _ _) _ = _
          rw [blk_put_other (by omega)]; exact i4 j (by omega)
      · intro j hj
        show blk (put _ _ _) _ = _
        rw [blk_put_other (by omega)]; exact i5 j (by omega)
      · intro i hi
        show put _ _ _ i = _
        rw [put_other (by omega)]; exact i6 i (by omega)
      · show bx sum _ = _
        rw [i7]; rfl)
  obtain ⟨b1, b2, b3, b4, b5, b6, b7⟩ := hB
  refine ⟨s2, ?_, b1, b2, b3, b4, b6, b7⟩
  rw [oneGroup]
  simp only [e1, Res.bind_ok, e2]

theorem runGroups_inv {σ : Type} (f : Group → σ → Res σ) (off : Nat → Block) (P : Nat → σ → Prop) (N : Nat)
    (hs : ∀ g : Group, g.first + g.count ≤ N → (∀ k, k < g.count → g.off k = off (g.first + k)) →
      ∀ s, P g.first s → ∃ s', f g s = .ok s' ∧ P (g.first + g.count) s') :
    ∀ (gs : List Group) (q : Nat) (s : σ), Consec gs q N → (∀ j, q ≤ j → j < N → offOf gs j = off j) → P q s →
      ∃ s', runGroups f gs s = .ok s' ∧ P N s' := by
  intro gs
  induction gs with
  | nil =>
    intro q s hc _ hp
    cases hc
    exact ⟨s, rfl, hp⟩
  | cons g gs ih =>
    intro q s hc ho hp
    obtain ⟨rfl, hc⟩ := hc
    have hle : g.first + g.count ≤ N := by
      clear ih ho
      have : ∀ (gs : List Group) (q : Nat), Consec gs q N → q ≤ N := by
        intro gs
        induction gs with
        | nil => intro q h; cases h; omega
        | cons a gs ih => intro q h; have := ih _ h.2; omega
      exact this _ _ hc
    obtain ⟨s1, e1, p1⟩ := hs g hle (by
      intro k hk
      have := ho (g.first + k) (by omega) (by omega)
      rw [offOf, if_pos (by omega)] at this
      rw [← this]; congr 1; omega) s hp
    obtain ⟨s2, e2, p2⟩ := ih (g.first + g.count) s1 hc (by
      intro j h1 h2
      have := ho j (by omega) h2
      rwa [offOf, if_neg (by omega)] at this) p1
    exact ⟨s2, by rw [runGroups, e1]; exact e2, p2⟩

/-- The offset of pair `j` in a message whose first part is `bytes` long. -/
def offs (c : Ctx) (bytes : Nat) : Nat → Block := offOf (groups c bytes)

theorem passOne_ok (c : Ctx) (al : Bool) (bytes : Nat) (m : Mem) (hd : bytes % 32 = 0) (hS : bytes ≤ ssize al m)
    (hD : bytes ≤ m.dst.size) :
    ∃ s, passOne R c al bytes m = .ok s ∧ One R c (offs c bytes) al m (bytes / 32) s.1 s.2 := by
  refine runGroups_inv _ (offs c bytes) (fun q (s : Mem × Block) => One R c (offs c bytes) al m q s.1 s.2) (bytes / 32) ?_ _ 0 _
    (consec_groups c bytes hd) (fun _ _ _ => rfl) ?_
  · rintro g hg ho ⟨m', sum⟩ h
    exact oneGroup_ok R c _ al m g bytes (by omega) hS hD ho m' sum h
  · exact ⟨rfl, rfl, fun j hj => absurd hj (Nat.not_lt_zero j), fun j hj => absurd hj (Nat.not_lt_zero j), fun _ _ => rfl, rfl⟩

/-! ## Second pass -/

/-- The mask of the second pass. -/
def G (c : Ctx) (x : Block) : Block := aes4 R x c.L c.I0 c.J0 c.L

/-- The values of the second pass on the pairs `(w j, x j)`. -/
def T (c : Ctx) (off : Nat → Block) (s : Block) (w : Nat → Block) (j : Nat) : Block := bx (w j) (G R c (bx s (off j)))
def C1 (c : Ctx) (off : Nat → Block) (s : Block) (w x : Nat → Block) (j : Nat) : Block :=
  bx (F R c (T R c off s x j)) (T R c off s w j)
def C0 (c : Ctx) (off : Nat → Block) (s : Block) (w x : Nat → Block) (j : Nat) : Block :=
  bx (F R c (bx (C1 R c off s w x j) (off j))) (T R c off s x j)

structure Two (c : Ctx) (off : Nat → Block) (s : Block) (m0 : Mem) (w x : Nat → Block) (q : Nat) (m : Mem) (sum : Block) :
    Prop where
  src : m.src = m0.src
  size : m.dst.size = m0.dst.size
  ev : ∀ j, j < q → blk m.dst.data (32 * j) = C0 R c off s w x j
  od : ∀ j, j < q → blk m.dst.data (32 * j + 16) = C1 R c off s w x j
  rest : ∀ i, 32 * q ≤ i → m.dst.data i = m0.dst.data i
  sum : sum = xsum (T R c off s w) q

theorem twoGroup_ok (c : Ctx) (off : Nat → Block) (s : Block) (m0 : Mem) (w x : Nat → Block) (g : Group) (n : Nat)
    (hn : 32 * (g.first + g.count) ≤ n) (hD : n ≤ m0.dst.size)
    (hw : ∀ j, j < g.first + g.count → blk m0.dst.data (32 * j) = w j)
    (hx : ∀ j, j < g.first + g.count → blk m0.dst.data (32 * j + 16) = x j)
    (ho : ∀ k, k < g.count → g.off k = off (g.first + k)) (m : Mem) (sum : Block)
    (h : Two R c off s m0 w x g.first m sum) :
    ∃ s', twoGroup R c s g (m, sum) = .ok s' ∧ Two R c off s m0 w x (g.first + g.count) s'.1 s'.2 := by
  obtain ⟨v1, e1, hA⟩ := loopN_inv (twoA R c s g)
    (fun k v => v.1.src = m0.src ∧ v.1.dst.size = m0.dst.size ∧
      (∀ j, j < g.first → blk v.1.dst.data (32 * j) = C0 R c off s w x j) ∧
      (∀ j, j < g.first → blk v.1.dst.data (32 * j + 16) = C1 R c off s w x j) ∧
      (∀ j, g.first ≤ j → j < g.first + k → blk v.1.dst.data (32 * j) = T R c off s x j) ∧
      (∀ j, g.first + k ≤ j → j < g.first + g.count → blk v.1.dst.data (32 * j) = w j) ∧
      (∀ j, g.first ≤ j → j < g.first + g.count → blk v.1.dst.data (32 * j + 16) = x j) ∧
      (∀ i, 32 * (g.first + g.count) ≤ i → v.1.dst.data i = m0.dst.data i) ∧
      (∀ i, i < k → v.2.2 i = T R c off s w (g.first + i)) ∧
      v.2.1 = xsum (T R c off s w) (g.first + k)) g.count (m, sum, fun _ => bzero)
    ⟨h.src, h.size, h.ev, h.od, fun j h1 h2 => absurd h2 (by omega),
      fun j h1 h2 => by
        show blk m.dst.data _ = _
        rw [blk_congr fun i hi _ => h.rest i (by omega)]; exact hw j h2,
      fun j h1 h2 => by
        show blk m.dst.data _ = _
        rw [blk_congr fun i hi _ => h.rest i (by omega)]; exact hx j h2,
      fun i hi => h.rest i (by omega), fun i hi => absurd hi (Nat.not_lt_zero i), h.sum⟩ (by
      rintro k hk ⟨m, sum, tmp⟩ ⟨i1, i2, i3, i4, i5, i6, i7, i8, i9, i10⟩
      simp only at i1 i2 i3 i4 i5 i6 i7 i8 i9 i10
      refine ⟨(⟨m.src, m.dst.size, put m.dst.data (32 * (g.first + k)) (T R c off s x (g.first + k))⟩,
        bx sum (T R c off s w (g.first + k)), fun j => if j = k then T R c off s w (g.first + k) else tmp j), ?_,
        i1, i2, ?_, ?_, ?_, ?_, ?_, ?_, ?_, ?_⟩
      · rw [twoA]
        simp only [ld_ok (b := m.dst) (off := 32 * (g.first + k)) (by omega),
          ld_ok (b := m.dst) (off := 32 * (g.first + k) + 16) (by omega), Res.bind_ok]
        rw [stD_ok _ (by omega), i6 _ (by omega) (by omega), i7 _ (by omega) (by omega), ho k hk]
        rfl
      · intro j hj
        show blk (put _ _ _) _ = _
        rw [blk_put_other (by omega)]; exact i3 j hj
      · intro j hj
        show blk (put _ _ _) _ = _
        rw [blk_put_other (by omega)]; exact i4 j hj
      · intro j hj hj2
        by_cases hj' : j = g.first + k
        · subst hj'; exact blk_put_same _ _ _
        · show blk (put _ _ _) _ = _
          rw [blk_put_other (by omega)]; exact i5 j hj (by omega)
      · intro j hj hj2
        show blk (put _ _ _) _ = _
        rw [blk_put_other (by omega)]; exact i6 j (by omega) hj2
      · intro j hj hj2
        show blk (put _ _ _) _ = _
        rw [blk_put_other (by omega)]; exact i7 j hj hj2
      · intro i hi
        show put _ _ _ i = _
        rw [put_other (by omega)]; exact i8 i (by omega)
      · intro i hi
        show (if i = k then _ else _) = _
        by_cases hik : i = k
        · subst hik; rw [if_pos rfl]
        · rw [if_neg hik]; exact i9 i (by omega)
      · show bx sum _ = _
        rw [i10]; rfl)
  obtain ⟨a1, a2, a3, a4, a5, a6, a7, a8, a9, a10⟩ := hA
  obtain ⟨m2, e2, hB⟩ := loopN_inv (twoB R c v1.2.2 g)
    (fun k m => m.src = m0.src ∧ m.dst.size = m0.dst.size ∧
      (∀ j, j < g.first → blk m.dst.data (32 * j) = C0 R c off s w x j) ∧
      (∀ j, j < g.first + k → blk m.dst.data (32 * j + 16) = C1 R c off s w x j) ∧
      (∀ j, g.first ≤ j → j < g.first + g.count → blk m.dst.data (32 * j) = T R c off s x j) ∧
      (∀ i, 32 * (g.first + g.count) ≤ i → m.dst.data i = m0.dst.data i)) g.count v1.1
    ⟨a1, a2, a3, a4, a5, a8⟩ (by
      rintro k hk m ⟨i1, i2, i3, i4, i5, i6⟩
      refine ⟨⟨m.src, m.dst.size, put m.dst.data (32 * (g.first + k) + 16) (C1 R c off s w x (g.first + k))⟩, ?_,
        i1, i2, ?_, ?_, ?_, ?_⟩
      · rw [twoB]
        simp only [ld_ok (b := m.dst) (off := 32 * (g.first + k)) (by omega), Res.bind_ok, aes4_eq]
        rw [stD_ok _ (by omega), i5 _ (by omega) (by omega), a9 k hk]
        rfl
      · intro j hj
        show blk (put _ _ _) _ = _
        rw [blk_put_other (by omega)]; exact i3 j hj
      · intro j hj
        by_cases hj' : j = g.first + k
        · subst hj'; exact blk_put_same _ _ _
        · show blk (put _ _ _) _ = _
          rw [blk_put_other (by omega)]; exact i4 j (by omega)
      · intro j hj hj2
        show blk (put _ _ _) _ = _
        rw [blk_put_other (by omega)]; exact i5 j hj hj2
      · intro i hi
        show put _ _ _ i = _
        rw [put_other (by omega)]; exact i6 i (by omega))
  obtain ⟨b1, b2, b3, b4, b5, b6⟩ := hB
  obtain ⟨m3, e3, hC⟩ := loopN_inv (twoC R c g)
    (fun k m => m.src = m0.src ∧ m.dst.size = m0.dst.size ∧
      (∀ j, j < g.first + k → blk m.dst.data (32 * j) = C0 R c off s w x j) ∧
      (∀ j, j < g.first + g.count → blk m.dst.data (32 * j + 16) = C1 R c off s w x j) ∧
      (∀ j, g.first + k ≤ j → j < g.first + g.count → blk m.dst.data (32 * j) = T R c off s x j) ∧
      (∀ i, 32 * (g.first + g.count) ≤ i → m.dst.data i = m0.dst.data i)) g.count m2
    ⟨b1, b2, b3, b4, b5, b6⟩ (by
      rintro k hk m ⟨i1, i2, i3, i4, i5, i6⟩
      refine ⟨⟨m.src, m.dst.size, put m.dst.data (32 * (g.first + k)) (C0 R c off s w x (g.first + k))⟩, ?_,
        i1, i2, ?_, ?_, ?_, ?_⟩
      · rw [twoC]
        simp only [ld_ok (b := m.dst) (off := 32 * (g.first + k)) (by omega),
          ld_ok (b := m.dst) (off := 32 * (g.first + k) + 16) (by omega), Res.bind_ok, aes4_eq]
        rw [stD_ok _ (by omega), i5 _ (by omega) (by omega), i4 _ (by omega), ho k hk]
        rfl
      · intro j hj
        by_cases hj' : j = g.first + k
        · subst hj'; exact blk_put_same _ _ _
        · show blk (put _ _ _) _ = _
          rw [blk_put_other (by omega)]; exact i3 j (by omega)
      · intro j hj
        show blk (put _ _ _) _ = _
        rw [blk_put_other (by omega)]; exact i4 j hj
      · intro j hj hj2
        show blk (put _ _ _) _ = _
        rw [blk_put_other (by omega)]; exact i5 j (by omega) hj2
      · intro i hi
        show put _ _ _ i = _
        rw [put_other (by omega)]; exact i6 i (by omega))
  obtain ⟨c1, c2, c3, c4, _, c6⟩ := hC
  refine ⟨(m3, v1.2.1), ?_, c1, c2, c3, c4, c6, a10⟩
  rw [twoGroup]
  simp only [e1, Res.bind_ok, e2, e3]
  rfl

theorem passTwo_ok (c : Ctx) (s : Block) (bytes : Nat) (m : Mem) (w x : Nat → Block) (hd : bytes % 32 = 0)
    (hD : bytes ≤ m.dst.size) (hw : ∀ j, j < bytes / 32 → blk m.dst.data (32 * j) = w j)
    (hx : ∀ j, j < bytes / 32 → blk m.dst.data (32 * j + 16) = x j) :
    ∃ v, passTwo R c s bytes m = .ok v ∧ Two R c (offs c bytes) s m w x (bytes / 32) v.1 v.2 := by
  refine runGroups_inv _ (offs c bytes) (fun q (v : Mem × Block) => Two R c (offs c bytes) s m w x q v.1 v.2) (bytes / 32) ?_ _ 0 _
    (consec_groups c bytes hd) (fun _ _ _ => rfl) ?_
  · rintro g hg ho ⟨m', sum⟩ h
    exact twoGroup_ok R c _ s m w x g bytes (by omega) hD (fun j hj => hw j (by omega)) (fun j hj => hx j (by omega)) ho m' sum h
  · exact ⟨rfl, rfl, fun j hj => absurd hj (Nat.not_lt_zero j), fun j hj => absurd hj (Nat.not_lt_zero j), fun _ _ => rfl, rfl⟩

end

end Verif.Aez
