/-
`mbedtls_mpi_exp_mod` and its second reference to the block of `RR`; primality.
-/
import Verif.Heap.BignumGood

namespace Verif.Heap

variable {f : Fl} {V W N : List Nat} {x y a b n t r u v : Nat} {c d : Cmd} {L : Led} {e : Nat → Prop} {σ σ' : St}

theorem Nulling.keep {N1 : List Nat} (hc : Nulling V W N c) (hd : Nulling V N1 N1 d) (hN : ∀ x ∈ N, x ∈ W)
    (hN1 : ∀ x ∈ N1, x ∈ W) : Nulling V W (N ++ N1) (.seq c d) := by
  intro L e σ o σ' hI hs hr
  cases hr with
  | seqStop h ho => exact absurd (hc L e σ _ _ hI hs h).1 ho
  | seqOk h h' =>
    obtain ⟨_, g1, i1, n1⟩ := hc L e σ _ _ hI hs h
    obtain ⟨k1, k2, k3, k4⟩ := hd L e _ _ _ i1 (by
      rw [g1.nv]
      intro x hx
      exact hs x (hx.imp id (hN1 x))) h'
    refine ⟨k1, g1.trans (k2.mono hN1 fun x hx => by rw [g1.nv]; exact (hs x (.inr hx)).1), k3, ?_⟩
    intro x hx
    by_cases h1 : x ∈ N1
    · exact k4 x h1
    · have hxN : x ∈ N := by simpa [h1] using hx
      exact null_keep k2 (by rw [g1.nv]; exact (hs x (.inr (hN x hxN))).1) h1 (n1 x hxN)

/-! ### Two references to one block -/

theorem owns_congr (h : σ.vars u = σ.vars v) (a : Nat) : Owns σ u a ↔ Owns σ v a := by
  unfold Owns; rw [h]

theorem not_owns_null (h : Null σ x) (a : Nat) : ¬ Owns σ x a := by
  rintro ⟨m, hm, hp⟩
  rw [show σ.vars x = some .null from h] at hm
  cases hm
  cases hp

/-- Of two references to the same block, either may be taken as the owner. -/
theorem Inv.switch (hI : Inv L (fun z => e z ∨ z = u) σ) (huv : σ.vars u = σ.vars v) (hv : v < σ.nv) (hev : ¬ e v)
    (heu : ¬ e u) (hne : u ≠ v) : Inv L (fun z => e z ∨ z = v) σ := by
  have hu : u < σ.nv := hI.exl u (.inr rfl)
  have hv' : ¬ (e v ∨ v = u) := fun h => h.elim hev fun h => hne h.symm
  refine ⟨?_, ?_, ?_, ?_, hI.wip⟩
  · rintro z (h | rfl)
    · exact hI.exl z (.inl h)
    · exact hv
  · intro z hz he
    rw [not_or] at he
    by_cases h : z = u
    · subst h
      rw [huv]
      exact hI.ini v hv hv'
    · exact hI.ini z hz fun h' => h'.elim he.1 h
  · intro y z a hy hz hey hez h1 h2
    rw [not_or] at hey hez
    by_cases hyu : y = u
    · by_cases hzu : z = u
      · rw [hyu, hzu]
      · subst hyu
        exact absurd (hI.inj v z a hv hz hv' (fun h => h.elim hez.1 hzu) ((owns_congr huv a).1 h1) h2).symm hez.2
    · by_cases hzu : z = u
      · subst hzu
        exact absurd (hI.inj y v a hy hv (fun h => h.elim hey.1 hyu) hv' h1 ((owns_congr huv a).1 h2)) hey.2
      · exact hI.inj y z a hy hz (fun h => h.elim hey.1 hyu) (fun h => h.elim hez.1 hzu) h1 h2
  · intro a ha hl
    rcases hI.own a ha hl with h | ⟨z, hz, hez, ho⟩
    · exact .inl h
    · right
      rw [not_or] at hez
      by_cases hzv : z = v
      · subst hzv
        exact ⟨u, hu, fun h => h.elim heu hne, (owns_congr huv a).2 ho⟩
      · exact ⟨z, hz, fun h => h.elim hez.1 hzv, ho⟩

/-- A second reference that holds nothing is an ordinary variable. -/
theorem Inv.unexempt (hI : Inv L (fun z => e z ∨ z = u) σ) (hn : Null σ u) : Inv L e σ := by
  refine ⟨fun z h => hI.exl z (.inl h), ?_, ?_, ?_, hI.wip⟩
  · intro z hz he
    by_cases h : z = u
    · subst h
      exact ⟨.null, hn, fun _ => rfl, fun a ha => by cases ha⟩
    · exact hI.ini z hz fun h' => h'.elim he h
  · intro y z a hy hz hey hez h1 h2
    have hyu : y ≠ u := by rintro rfl; exact not_owns_null hn a h1
    have hzu : z ≠ u := by rintro rfl; exact not_owns_null hn a h2
    exact hI.inj y z a hy hz (fun h => h.elim hey hyu) (fun h => h.elim hez hzu) h1 h2
  · intro a ha hl
    rcases hI.own a ha hl with h | ⟨z, hz, hez, ho⟩
    · exact .inl h
    · exact .inr ⟨z, hz, fun h => hez (.inl h), ho⟩

theorem Inv.exempt (hI : Inv L e σ) (hu : u < σ.nv) (hn : Null σ u) : Inv L (fun z => e z ∨ z = u) σ := by
  refine ⟨?_, ?_, ?_, ?_, hI.wip⟩
  · rintro z (h | rfl)
    · exact hI.exl z h
    · exact hu
  · intro z hz he
    exact hI.ini z hz fun h => he (.inl h)
  · intro y z a hy hz hey hez h1 h2
    exact hI.inj y z a hy hz (fun h => hey (.inl h)) (fun h => hez (.inl h)) h1 h2
  · intro a ha hl
    rcases hI.own a ha hl with h | ⟨z, hz, hez, ho⟩
    · exact .inl h
    · refine .inr ⟨z, hz, fun h => ?_, ho⟩
      rcases h with h | rfl
      · exact hez h
      · exact not_owns_null hn a ho

theorem alias_frame (hx : x ∈ W) (hy : y ∈ W) : Frame W σ (σ.setVar x (σ.vars y)) := by
  refine ⟨rfl, Nat.le_refl _, ?_, fun _ _ _ => rfl, ?_, fun _ _ h => h⟩
  · intro z hz hzW
    have : z ≠ x := by rintro rfl; exact hzW hx
    simp [St.setVar, this]
  · intro z hz a ho
    by_cases h : z = x
    · subst h
      refine .inl ⟨y, hy, ?_⟩
      obtain ⟨m, hm, hp⟩ := ho
      exact ⟨m, by simpa [St.setVar] using hm, hp⟩
    · refine .inl ⟨z, hz, ?_⟩
      obtain ⟨m, hm, hp⟩ := ho
      exact ⟨m, by simpa [St.setVar, h] using hm, hp⟩

/-- `u` becomes a second reference to the block of `v`. -/
theorem alias_inv (hI : Inv L e σ) (hu : u < σ.nv) (heu : ¬ e u) (hn : Null σ u) (hne : u ≠ v) :
    Inv L (fun z => e z ∨ z = u) (σ.setVar u (σ.vars v)) := by
  have hI' := hI.exempt hu hn
  have hvar : ∀ z, z ≠ u → (σ.setVar u (σ.vars v)).vars z = σ.vars z := fun z hz => by simp [St.setVar, hz]
  have hown : ∀ z a, z ≠ u → (Owns (σ.setVar u (σ.vars v)) z a ↔ Owns σ z a) := fun z a hz => by
    unfold Owns; rw [hvar z hz]
  refine ⟨hI'.exl, ?_, ?_, ?_, hI'.wip⟩
  · intro z hz he
    rw [hvar z fun h => he (.inr h)]
    exact hI'.ini z hz he
  · intro y z a hy hz hey hez h1 h2
    rw [hown y a fun h => hey (.inr h)] at h1
    rw [hown z a fun h => hez (.inr h)] at h2
    exact hI'.inj y z a hy hz hey hez h1 h2
  · intro a ha hl
    rcases hI'.own a ha hl with h | ⟨z, hz, hez, ho⟩
    · exact .inl h
    · exact .inr ⟨z, hz, hez, (hown z a fun h => hez (.inr h)).2 ho⟩

theorem run_alias {o : Out} (hI : Inv L e σ) (hx : x < σ.nv) (hy : y < σ.nv) (hey : ¬ e y) (h : Run (alias x y) σ o σ') :
    o = .ok ∧ σ' = σ.setVar x (σ.vars y) := by
  obtain ⟨m, hl, hv, _⟩ := hI.look hy hey
  cases h with
  | prim ch hst =>
    simp only [step, aliasP, hl, if_pos hx, Prod.mk.injEq] at hst
    refine ⟨hst.1.symm, ?_⟩
    rw [← hst.2, hv]

/-! ### `mbedtls_mpi_exp_mod` -/

theorem mem_expTemps {t ap w ws z : Nat} : z ∈ expTemps t ap w ws ↔
    (∃ i, i < 2 ^ (ws - 1) ∧ z = w + 2 ^ (ws - 1) + i) ∨ z = w + 1 ∨ z = t ∨ z = ap := by
  simp only [expTemps, List.mem_append, List.mem_map, List.mem_range, List.mem_cons, List.not_mem_nil, or_false]
  constructor
  · rintro (⟨i, hi, rfl⟩ | h)
    · exact .inl ⟨i, hi, rfl⟩
    · exact .inr h
  · rintro (⟨i, hi, rfl⟩ | h)
    · exact .inl ⟨i, hi, rfl⟩
    · exact .inr h

theorem expTemps_lt {s ws z : Nat} (hws : ws ∈ [1, 3, 4, 5, 6]) (h : z ∈ expTemps (s + 1) (s + 2) (s + 3) ws) :
    s < z ∧ z < s + 131 := by
  rw [mem_expTemps] at h
  have h2 : 2 ^ (ws - 1) ≤ 32 := by
    simp only [List.mem_cons, List.not_mem_nil, or_false] at hws
    rcases hws with rfl | rfl | rfl | rfl | rfl <;> decide
  rcases h with ⟨i, hi, rfl⟩ | h
  · omega
  · omega

theorem expBody_none {e' : Nat} {ws : Nat} {neg : Bool} {s : Nat} (hf : f.er = true) (hx : x ∈ W) (ha : a ∈ V ∨ a ∈ W)
    (he : e' ∈ V ∨ e' ∈ W) (hn : n ∈ V ∨ n ∈ W) (hws : ws ∈ [1, 3, 4, 5, 6]) :
    Scoped f V W (List.range' s 131) (expBody x a e' n none s (s + 1) (s + 2) (s + 3) ws neg) := by
  unfold expBody
  simp only
  have ht : ∀ z, z ∈ expTemps (s + 1) (s + 2) (s + 3) ws → z ∈ W ++ (expTemps (s + 1) (s + 2) (s + 3) ws ++ [s]) :=
    fun z hz => by simp [hz]
  have h1 : s ∈ W ++ (expTemps (s + 1) (s + 2) (s + 3) ws ++ [s]) := by simp
  have hx' : x ∈ W ++ (expTemps (s + 1) (s + 2) (s + 3) ws ++ [s]) := by simp [hx]
  have hw := ht (s + 3 + 1) (mem_expTemps.2 (by simp))
  have htt := ht (s + 1) (mem_expTemps.2 (by simp))
  have hap := ht (s + 2) (mem_expTemps.2 (by simp))
  have hwi : ∀ i, i < 2 ^ (ws - 1) → s + 3 + 2 ^ (ws - 1) + i ∈ W ++ (expTemps (s + 1) (s + 2) (s + 3) ws ++ [s]) :=
    fun i hi => ht _ (mem_expTemps.2 (.inl ⟨i, hi, rfl⟩))
  refine Scoped.cleanup hf (N1 := expTemps (s + 1) (s + 2) (s + 3) ws ++ [s]) ?_ (Body.main ?_) ?_
  · intro z hz
    rw [List.mem_range'_1]
    rcases List.mem_append.1 hz with h | h
    · have := expTemps_lt hws h; omega
    · simp at h; omega
  · refine Good.seq (expPre_good hf hx' (rd_app ha) (rd_app hn) htt hap hw)
      (Good.seq (expRR_good hf h1 (rd_app hn)) (expPost_good hf hx' ?_ (rd_app he) (rd_app hn) (.inr h1) htt hw hwi))
    split
    · exact .inr hap
    · exact rd_app ha
  · exact (nulling_freeAll _ ht).keep (nulling_free (by simp)) ht (by simp)

/-- A program without leaks. -/
theorem Good.plain {o : Out} (h : Good {} V W c) (hI : Inv L e σ) (hs : ∀ x, x ∈ V ∨ x ∈ W → x < σ.nv ∧ ¬ e x)
    (hr : Run c σ o σ') : (o = .ok ∨ o = .err) ∧ Frame W σ σ' ∧ Inv L e σ' := by
  obtain ⟨f1, g1, L1, x1, i1⟩ := h L e σ _ _ hI hs hr
  refine ⟨?_, g1, ?_⟩
  · cases o with
    | ok => exact .inl rfl
    | err => exact .inr rfl
    | ret b => exact absurd (f1.ret b rfl) (by simp)
    | ub => exact absurd rfl f1.ub
  · have e1 : L1.leak = L.leak := funext fun a => propext ⟨x1.leak' (by simp [Fl.lk]) a, x1.leak a⟩
    have e2 : L1.dirty = L.dirty := funext fun a => propext ⟨x1.dirty' rfl a, x1.dirty a⟩
    have : L1 = L := by cases L1; cases L; simp only at e1 e2; subst e1 e2; rfl
    rw [← this]
    exact i1

theorem null_of_look {m : Mpi} (hI : Inv L e σ) (hx : x < σ.nv) (hex : ¬ e x) (hl : σ.look x = some m) (hp : m.p = none) :
    Null σ x := by
  obtain ⟨m', hl', hv, h0, _⟩ := hI.look hx hex
  rw [hl] at hl'
  cases hl'
  have := h0 hp
  rw [Null, hv]
  cases m
  simp only at hp this
  subst hp this
  rfl

theorem expBody_some {e' : Nat} {ws : Nat} {neg : Bool} {s : Nat} (hf : f.er = true) (hx : x ∈ W) (ha : a ∈ V ∨ a ∈ W)
    (he : e' ∈ V ∨ e' ∈ W) (hn : n ∈ V ∨ n ∈ W) (hr : r ∈ W) (hrx : r ≠ x) (hra : r ≠ a) (hre : r ≠ e') (hrn : r ≠ n)
    (hws : ws ∈ [1, 3, 4, 5, 6]) :
    Scoped f V W (List.range' s 131) (expBody x a e' n (some r) s (s + 1) (s + 2) (s + 3) ws neg) := by
  intro L e σ o σ' hI hs hnN hrun
  let T := expTemps (s + 1) (s + 2) (s + 3) ws
  have hTlt : ∀ z ∈ T, s < z ∧ z < s + 131 := fun z hz => expTemps_lt hws hz
  have hTN : ∀ z ∈ T, z ∈ List.range' s 131 := fun z hz => by
    rw [List.mem_range'_1]; have := hTlt z hz; omega
  have hsN : s ∈ List.range' s 131 := by rw [List.mem_range'_1]; omega
  have hsT : s ∉ T := fun h => by have := hTlt s h; omega
  obtain ⟨hr1, hr2, hr3⟩ := hs r (.inr hr)
  obtain ⟨hs1, hs2, hs3⟩ := hnN s hsN
  have hrs : r ≠ s := by rintro rfl; exact hr3 hsN
  have hrT : r ∉ T := fun h => hr3 (hTN r h)
  have rdN : ∀ {z}, (z ∈ V ∨ z ∈ W) → z < σ.nv ∧ ¬ e z ∧ z ≠ s ∧ z ∉ T := fun {z} hz =>
    ⟨(hs z hz).1, (hs z hz).2.1, by rintro rfl; exact (hs z hz).2.2 hsN, fun h => (hs z hz).2.2 (hTN z h)⟩
  have xs := rdN (.inr hx : x ∈ V ∨ x ∈ W)
  have as := rdN ha
  have es := rdN he
  have ns := rdN hn
  have hw1 : s + 3 + 1 ∈ x :: T := List.mem_cons_of_mem _ (mem_expTemps.2 (by simp))
  have ht1 : s + 1 ∈ x :: T := List.mem_cons_of_mem _ (mem_expTemps.2 (by simp))
  have hap : s + 2 ∈ x :: T := List.mem_cons_of_mem _ (mem_expTemps.2 (by simp))
  have hwi : ∀ i, i < 2 ^ (ws - 1) → s + 3 + 2 ^ (ws - 1) + i ∈ x :: T :=
    fun i hi => List.mem_cons_of_mem _ (mem_expTemps.2 (.inl ⟨i, hi, rfl⟩))
  have gpre : Good {} [a, e', n] (x :: T) (expPre x a n (s + 1) (s + 2) (s + 3) neg) :=
    expPre_good rfl (by simp) (by simp) (by simp) ht1 hap hw1
  have grr : Good {} [n] [s] (expRR s n) := expRR_good rfl (by simp) (by simp)
  have gpost : Good {} [a, e', n, s] (x :: T)
      (expPost x (if neg then s + 2 else a) e' n s (s + 1) (s + 3) ws neg) := by
    refine expPost_good rfl (by simp) ?_ (by simp) (by simp) (by simp) ht1 hw1 hwi
    split
    · exact .inr hap
    · simp
  -- the variables that may change
  have hWb : ∀ z ∈ W ++ List.range' s 131, z < σ.nv := fun z hz => by
    rcases List.mem_append.1 hz with h | h
    · exact (hs z (.inr h)).1
    · exact (hnN z h).1
  have hsubT : ∀ z ∈ x :: T, z ∈ W ++ List.range' s 131 := fun z hz => by
    rcases List.mem_cons.1 hz with rfl | h
    · simp [hx]
    · simp only [List.mem_append]; exact .inr (hTN z h)
  have hfr : ∀ {W' : List Nat} {σ1 σ2 : St}, σ1.nv = σ.nv → Frame W' σ1 σ2 → (∀ z ∈ W', z ∈ W ++ List.range' s 131) →
      Frame (W ++ List.range' s 131) σ1 σ2 := fun h1 h h2 => h.mono h2 fun z hz => by rw [h1]; exact hWb z hz
  have hscT : ∀ {σ1 : St} {E : Nat → Prop}, σ1.nv = σ.nv → (∀ z, E z → e z ∨ z = s ∨ z = r) → ∀ z,
      z ∈ [a, e', n] ∨ z ∈ x :: T → z < σ1.nv ∧ ¬ E z := by
    intro σ1 E h1 h2 z hz
    rw [h1]
    have : z < σ.nv ∧ ¬ e z ∧ z ≠ s ∧ z ≠ r := by
      rcases hz with hz | hz
      · simp only [List.mem_cons, List.not_mem_nil, or_false] at hz
        rcases hz with rfl | rfl | rfl
        · exact ⟨as.1, as.2.1, as.2.2.1, hra.symm⟩
        · exact ⟨es.1, es.2.1, es.2.2.1, hre.symm⟩
        · exact ⟨ns.1, ns.2.1, ns.2.2.1, hrn.symm⟩
      · rcases List.mem_cons.1 hz with rfl | h
        · exact ⟨xs.1, xs.2.1, xs.2.2.1, hrx.symm⟩
        · exact ⟨(hnN z (hTN z h)).1, (hnN z (hTN z h)).2.1, by rintro rfl; exact hsT h, by rintro rfl; exact hrT h⟩
    refine ⟨this.1, fun h => ?_⟩
    rcases h2 z h with h | h | h
    · exact this.2.1 h
    · exact this.2.2.1 h
    · exact this.2.2.2 h
  -- the states at the label `cleanup`
  let S : St → Prop := fun σ1 => Frame (W ++ List.range' s 131) σ σ1 ∧
    (∀ z ∈ List.range' s 131, z ∉ T → z ≠ s → Null σ1 z) ∧
    ((Inv L e σ1 ∧ (Null σ1 r ∨ Null σ1 s)) ∨ (Inv L (fun z => e z ∨ z = s) σ1 ∧ σ1.vars s = σ1.vars r))
  have hpost : ∀ {σ1 o σ2}, Frame (W ++ List.range' s 131) σ σ1 → (∀ z ∈ List.range' s 131, z ∉ T → z ≠ s → Null σ1 z) →
      Inv L (fun z => e z ∨ z = s) σ1 → σ1.vars s = σ1.vars r →
      Run (expPost x (if neg then s + 2 else a) e' n s (s + 1) (s + 3) ws neg) σ1 o σ2 →
      (o = .ok ∨ o = .err) ∧ S σ2 := by
    intro σ1 o σ2 g1 n1 i1 v1 hr2'
    have i1' := i1.switch v1 (by rw [g1.nv]; exact hr1) hr2 hs2 hrs.symm
    obtain ⟨ho, g2, i2⟩ := gpost.plain i1' (fun z hz => by
      rcases hz with hz | hz
      · simp only [List.mem_cons, List.not_mem_nil, or_false] at hz
        have : z = s ∨ z ∈ [a, e', n] := by
          rcases hz with h | h | h | h <;> simp [h]
        rcases this with rfl | h
        · refine ⟨by rw [g1.nv]; exact hs1, fun h => h.elim hs2 hrs.symm⟩
        · exact hscT g1.nv (E := fun z => e z ∨ z = r) (fun z hz => hz.imp id .inr) z (.inl h)
      · exact hscT g1.nv (E := fun z => e z ∨ z = r) (fun z hz => hz.imp id .inr) z (.inr hz)) hr2'
    have hk : ∀ z, z < σ.nv → z ∉ x :: T → σ2.vars z = σ1.vars z := fun z hz h =>
      g2.vars z (by rw [g1.nv]; exact hz) h
    have e1 := hk s hs1 (by simp only [List.mem_cons, not_or]; exact ⟨fun h => xs.2.2.1 h.symm, hsT⟩)
    have e2 := hk r hr1 (by simp only [List.mem_cons, not_or]; exact ⟨hrx, hrT⟩)
    have v2 : σ2.vars s = σ2.vars r := by rw [e1, e2, v1]
    refine ⟨ho, g1.trans (hfr g1.nv g2 hsubT), ?_, .inr ⟨i2.switch v2.symm (by rw [g2.nv, g1.nv]; exact hs1) hs2 hr2 hrs, v2⟩⟩
    intro z hz hzT hzs
    have := hk z (hnN z hz).1 (by
      simp only [List.mem_cons, not_or]
      exact ⟨by rintro rfl; exact (hs z (.inr hx)).2.2 hz, hzT⟩)
    rw [Null, this]
    exact n1 z hz hzT hzs
  have hmain : ∀ {o σ1}, Run (expPre x a n (s + 1) (s + 2) (s + 3) neg ;;
      Cmd.ifNull r (expRR s n ;; alias r s) (alias s r) ;;
      expPost x (if neg then s + 2 else a) e' n s (s + 1) (s + 3) ws neg) σ o σ1 → (o = .ok ∨ o = .err) ∧ S σ1 := by
    -- after the first part
    have hpre : ∀ {o σ1}, Run (expPre x a n (s + 1) (s + 2) (s + 3) neg) σ o σ1 → (o = .ok ∨ o = .err) ∧
        Frame (x :: T) σ σ1 ∧ Inv L e σ1 ∧ Null σ1 s ∧ ∀ z ∈ List.range' s 131, z ∉ T → z ≠ s → Null σ1 z := by
      intro o σ1 h
      obtain ⟨ho, g1, i1⟩ := gpre.plain hI (hscT rfl (E := e) fun z h => .inl h) h
      refine ⟨ho, g1, i1, null_keep g1 hs1 ?_ hs3, ?_⟩
      · simp only [List.mem_cons, not_or]; exact ⟨fun h => xs.2.2.1 h.symm, hsT⟩
      · intro z hz hzT hzs
        refine null_keep g1 (hnN z hz).1 ?_ (hnN z hz).2.2
        simp only [List.mem_cons, not_or]
        exact ⟨by rintro rfl; exact (hs z (.inr hx)).2.2 hz, hzT⟩
    intro o σ1 h
    cases h with
    | seqStop h ho =>
      obtain ⟨k1, k2, k3, k4, k5⟩ := hpre h
      exact ⟨k1, hfr rfl k2 hsubT, k5, .inl ⟨k3, .inr k4⟩⟩
    | seqOk h h' =>
      obtain ⟨_h0, k2, k3, k4, k5⟩ := hpre h
      rename_i σ2
      have k2' := hfr rfl k2 hsubT
      have hnv : σ2.nv = σ.nv := k2.nv
      have hs1' : s < σ2.nv := by rw [hnv]; exact hs1
      have hr1' : r < σ2.nv := by rw [hnv]; exact hr1
      -- the second part
      have hmid : ∀ {o σ3}, Run (Cmd.ifNull r (expRR s n ;; alias r s) (alias s r)) σ2 o σ3 →
          (o = .ok ∧ Frame (W ++ List.range' s 131) σ σ3 ∧ (∀ z ∈ List.range' s 131, z ∉ T → z ≠ s → Null σ3 z) ∧
            Inv L (fun z => e z ∨ z = s) σ3 ∧ σ3.vars s = σ3.vars r) ∨ (o = .err ∧ S σ3) := by
        intro o σ3 h
        cases h with
        | ifNullU hn =>
          obtain ⟨m, hl, _⟩ := k3.look hr1' hr2
          rw [hl] at hn
          cases hn
        | ifNullF hl hp h =>
          obtain ⟨rfl, rfl⟩ := run_alias k3 hs1' hr1' hr2 h
          refine .inl ⟨rfl, k2'.trans (alias_frame (by simp) (by simp [hr])), ?_, alias_inv k3 hs1' hs2 k4 hrs.symm, ?_⟩
          · intro z hz hzT hzs
            have := k5 z hz hzT hzs
            simpa [Null, St.setVar, hzs] using this
          · simp [St.setVar, hrs]
        | ifNullT hl hp h =>
          have hrnull := null_of_look k3 hr1' hr2 hl hp
          have hrr : ∀ {o σ4}, Run (expRR s n) σ2 o σ4 → (o = .ok ∨ o = .err) ∧ Frame [s] σ2 σ4 ∧ Inv L e σ4 ∧ Null σ4 r := by
            intro o σ4 h
            obtain ⟨ho, g1, i1⟩ := grr.plain k3 (fun z hz => by
              simp only [List.mem_cons, List.not_mem_nil, or_false] at hz
              rw [hnv]
              rcases hz with rfl | rfl
              · exact ⟨ns.1, ns.2.1⟩
              · exact ⟨hs1, hs2⟩) h
            exact ⟨ho, g1, i1, null_keep g1 hr1' (by simp [hrs]) hrnull⟩
          have hoth : ∀ {σ4}, Frame [s] σ2 σ4 → ∀ z ∈ List.range' s 131, z ∉ T → z ≠ s → Null σ4 z := by
            intro σ4 g z hz hzT hzs
            exact null_keep g (by rw [hnv]; exact (hnN z hz).1) (by simp [hzs]) (k5 z hz hzT hzs)
          have hs_in : ∀ z ∈ [s], z ∈ W ++ List.range' s 131 := by simp
          cases h with
          | seqStop h ho =>
            obtain ⟨q1, q2, q3, q4⟩ := hrr h
            have : o = .err := by
              rcases q1 with h | h
              · exact absurd h ho
              · exact h
            exact .inr ⟨this, k2'.trans (hfr hnv q2 hs_in), hoth q2, .inl ⟨q3, .inl q4⟩⟩
          | seqOk h h' =>
            obtain ⟨_, q2, q3, q4⟩ := hrr h
            have hnv4 := q2.nv
            obtain ⟨rfl, rfl⟩ := run_alias q3 (by rw [hnv4]; exact hr1') (by rw [hnv4]; exact hs1') hs2 h'
            refine .inl ⟨rfl, (k2'.trans (hfr hnv q2 hs_in)).trans (alias_frame (by simp [hr]) (by simp)), ?_, ?_, ?_⟩
            · intro z hz hzT hzs
              have := hoth q2 z hz hzT hzs
              have hzr : z ≠ r := by rintro rfl; exact hr3 hz
              simpa [Null, St.setVar, hzr] using this
            · refine (alias_inv q3 (by rw [hnv4]; exact hr1') hr2 q4 hrs).switch ?_ ?_ hs2 hr2 hrs
              · simp [St.setVar, hrs.symm]
              · show s < _; simp only [St.setVar]; rw [hnv4]; exact hs1'
            · simp [St.setVar, hrs.symm]
      cases h' with
      | seqStop h ho =>
        rcases hmid h with ⟨rfl, _⟩ | ⟨rfl, hS⟩
        · exact absurd rfl ho
        · exact ⟨.inr rfl, hS⟩
      | seqOk h h' =>
        rcases hmid h with ⟨_, q1, q2, q3, q4⟩ | ⟨h0, _⟩
        · exact hpost q1 q2 q3 q4 h'
        · cases h0
  -- the clean-up
  have hclean : ∀ {σ1 o σ2}, S σ1 → Run (freeAll T ;; Cmd.ifNull r (free s) .skip) σ1 o σ2 →
      o = .ok ∧ Frame (W ++ List.range' s 131) σ σ2 ∧ Done L e (List.range' s 131) σ2 := by
    intro σ1 o σ2 ⟨g1, n1, hst⟩ h
    have hnv : σ1.nv = σ.nv := g1.nv
    have hfreeT : ∀ {E : Nat → Prop} {o σ3}, (∀ z, E z → e z ∨ z = s) → Inv L E σ1 → Run (freeAll T) σ1 o σ3 →
        o = .ok ∧ Frame T σ1 σ3 ∧ Inv L E σ3 ∧ (∀ z ∈ List.range' s 131, z ≠ s → Null σ3 z) ∧
        σ3.vars s = σ1.vars s ∧ σ3.vars r = σ1.vars r := by
      intro E o σ3 hE hI' h
      obtain ⟨q1, q2, q3, q4⟩ := nulling_freeAll (V := []) (W := T) T (fun _ h => h) L E σ1 _ _ hI' (fun z hz => by
        rcases hz with hz | hz
        · cases hz
        · refine ⟨by rw [hnv]; exact (hnN z (hTN z hz)).1, fun h => ?_⟩
          rcases hE z h with h | h
          · exact (hnN z (hTN z hz)).2.1 h
          · subst h; exact hsT hz) h
      refine ⟨q1, q2, q3, ?_, q2.vars s (by rw [hnv]; exact hs1) hsT, q2.vars r (by rw [hnv]; exact hr1) hrT⟩
      intro z hz hzs
      by_cases hzT : z ∈ T
      · exact q4 z hzT
      · exact null_keep q2 (by rw [hnv]; exact (hnN z hz).1) hzT (n1 z hz hzT hzs)
    have hall : ∀ {τ : St}, (∀ z ∈ List.range' s 131, z ≠ s → Null τ z) → Null τ s → ∀ z ∈ List.range' s 131, Null τ z := by
      intro τ h1 h2 z hz
      by_cases hzs : z = s
      · rw [hzs]; exact h2
      · exact h1 z hz hzs
    have hfree_s : ∀ {σ3 o σ4}, σ3.nv = σ.nv → Inv L e σ3 → (∀ z ∈ List.range' s 131, z ≠ s → Null σ3 z) → Run (free s) σ3 o σ4 →
        o = .ok ∧ Frame [s] σ3 σ4 ∧ Done L e (List.range' s 131) σ4 := by
      intro σ3 o σ4 hnv3 hI3 hn3 h
      obtain ⟨q1, q2, q3, q4⟩ := nulling_free (V := []) (W := [s]) (x := s) (by simp) L e σ3 _ _ hI3 (by
        intro z hz
        simp only [List.mem_cons, List.not_mem_nil, or_false, false_or] at hz
        subst hz
        exact ⟨by rw [hnv3]; exact hs1, hs2⟩) h
      refine ⟨q1, q2, done_of_null q3 (hall ?_ (q4 s (by simp)))⟩
      intro z hz hzs
      exact null_keep q2 (by rw [hnv3]; exact (hnN z hz).1) (by simp [hzs]) (hn3 z hz hzs)
    have hTin : ∀ z ∈ T, z ∈ W ++ List.range' s 131 := fun z hz => by
      simp only [List.mem_append]; exact .inr (hTN z hz)
    have hs_in : ∀ z ∈ [s], z ∈ W ++ List.range' s 131 := by simp
    -- which of the two states
    rcases hst with ⟨i1, hor⟩ | ⟨i1, hv⟩
    · cases h with
      | seqStop h ho => exact absurd (hfreeT (E := e) (fun z h => .inl h) i1 h).1 ho
      | seqOk h h' =>
        obtain ⟨_h0, q2, q3, q4, q5, q6⟩ := hfreeT (E := e) (fun z h => .inl h) i1 h
        have hnv3 := q2.nv.trans hnv
        have gg := g1.trans (hfr hnv q2 hTin)
        cases h' with
        | ifNullU hn =>
          obtain ⟨m, hl, _⟩ := q3.look (by rw [hnv3]; exact hr1) hr2
          rw [hl] at hn
          cases hn
        | ifNullT hl hp h =>
          obtain ⟨u1, u2, u3⟩ := hfree_s hnv3 q3 q4 h
          exact ⟨u1, gg.trans (hfr hnv3 u2 hs_in), u3⟩
        | ifNullF hl hp h =>
          cases h
          refine ⟨rfl, gg, done_of_null q3 (hall q4 ?_)⟩
          rcases hor with h | h
          · exfalso
            have hlt : r < σ2.nv := by rw [hnv3]; exact hr1
            rw [St.look, if_pos hlt, q6, show σ1.vars r = some .null from h] at hl
            cases hl
            cases hp
          · rw [Null, q5]; exact h
    · cases h with
      | seqStop h ho => exact absurd (hfreeT (E := fun z => e z ∨ z = s) (fun z h => h) i1 h).1 ho
      | seqOk h h' =>
        rename_i σ3
        obtain ⟨_h0, q2, q3, q4, q5, q6⟩ := hfreeT (E := fun z => e z ∨ z = s) (fun z h => h) i1 h
        have hnv3 := q2.nv.trans hnv
        have gg := g1.trans (hfr hnv q2 hTin)
        have hre' : ¬ (e r ∨ r = s) := fun h => h.elim hr2 hrs
        cases h' with
        | ifNullU hn =>
          obtain ⟨m, hl, _⟩ := q3.look (by rw [hnv3]; exact hr1) hre'
          rw [hl] at hn
          cases hn
        | ifNullT hl hp h =>
          have hrn := null_of_look q3 (by rw [hnv3]; exact hr1) hre' hl hp
          have hsn : Null σ3 s := by rw [Null, q5, hv, ← q6]; exact hrn
          obtain ⟨u1, u2, u3⟩ := hfree_s hnv3 (q3.unexempt hsn) q4 h
          exact ⟨u1, gg.trans (hfr hnv3 u2 hs_in), u3⟩
        | ifNullF hl hp h =>
          cases h
          refine ⟨rfl, gg, fun z => e z ∨ z = s, fun z h => .inl h, fun z h => h.imp id (by rintro rfl; exact hsN), q3, ?_⟩
          intro z hz
          by_cases hzs : z = s
          · exact .inl (.inr hzs)
          · exact .inr (q4 z hz hzs)
  unfold expBody cleanup at hrun
  simp only at hrun
  cases hrun with
  | endOk h h' =>
    obtain ⟨_, hS⟩ := hmain h
    obtain ⟨rfl, g, hD⟩ := hclean hS h'
    exact ⟨Flow.okF, g, L, Ext.refl _ _ _, hD⟩
  | endErr h h' =>
    obtain ⟨_, hS⟩ := hmain h
    obtain ⟨rfl, g, hD⟩ := hclean hS h'
    exact ⟨Flow.errF hf, g, L, Ext.refl _ _ _, hD⟩
  | endStop h h1 h2 =>
    rcases (hmain h).1 with h | h
    · exact absurd h h1
    · exact absurd h h2

theorem expMod_good {e' : Nat} {q : Option Nat} (hf : f.er = true) (hx : x ∈ W) (ha : a ∈ V ∨ a ∈ W)
    (he : e' ∈ V ∨ e' ∈ W) (hn : n ∈ V ∨ n ∈ W)
    (hq : ∀ r, q = some r → r ∈ W ∧ r ≠ x ∧ r ≠ a ∧ r ≠ e' ∧ r ≠ n) : Good f V W (expMod x a e' n q) := by
  unfold expMod
  refine (Good.get hn).seq ((Good.mayFail hf).seq ((Good.get he).seq ((Good.mayFail hf).seq ?_)))
  refine Good.locals (N := fun s => List.range' s 131) (by intro b x; rw [List.mem_range'_1]) fun s hs => ?_
  refine Scoped.pre (look_good he) ?_
  have key : ∀ ws ∈ [1, 3, 4, 5, 6], ∀ neg, Scoped f V W (List.range' s 131)
      (expBody x a e' n q s (s + 1) (s + 2) (s + 3) ws neg) := by
    intro ws hws neg
    cases q with
    | none => exact expBody_none hf hx ha he hn hws
    | some r =>
      obtain ⟨h1, h2, h3, h4, h5⟩ := hq r rfl
      exact expBody_some hf hx ha he hn h1 h2 h3 h4 h5 hws
  simp only [List.map_cons, List.map_nil, altL]
  exact ((key 1 (by simp) true).alt (key 1 (by simp) false)).alt
    (((key 3 (by simp) true).alt (key 3 (by simp) false)).alt
    (((key 4 (by simp) true).alt (key 4 (by simp) false)).alt
    (((key 5 (by simp) true).alt (key 5 (by simp) false)).alt
    ((key 6 (by simp) true).alt (key 6 (by simp) false)))))

/-! ### Primality -/

theorem millerRabin_good {g : Bool} (hf : f.er = true) (hx : x ∈ V ∨ x ∈ W) (hg : g = true → f.lo = true ∨ f.le = true) :
    Good f V W (millerRabin g x) := by
  unfold millerRabin
  refine Good.fn ?_ hf
  refine Good.locals (N := fun s => [s, s + 1, s + 2, s + 3, s + 4]) (by locs) fun s hs => ?_
  refine Scoped.cleanup hf (N1 := [s, s + 1, s + 2, s + 3, s + 4]) (fun _ h => h) ?_ (nulling_freeAll _ (by simp))
  have hsx : ∀ i, x ≠ s + i := fun i h => by have := hs x hx; omega
  -- the flags of the body: it returns without clean-up only when it gives up
  have key : ∀ (f' : Fl), f'.er = true → (g = true → f'.r true = true) → Good f' V (W ++ [s, s + 1, s + 2, s + 3, s + 4])
      (subInt s x ;; look s ;; copy (s + 1) s ;; shiftR (s + 1) ;; look x ;;
       .loop (
         get x ;; fillRandom (s + 3) ;; cmp (some (s + 3)) (some s) ;; opt (shiftR (s + 3)) ;;
         get (s + 3) ;; setW (s + 3) ;;
         loop1 (fillRandom (s + 3) ;; look (s + 3) ;; look s ;; opt (shiftR (s + 3)) ;;
           (if g then .alt (.ret true) .skip else .skip) ;; cmp (some (s + 3)) (some s) ;; get (s + 3)) ;;
         expMod (s + 3) (s + 3) (s + 1) x (some (s + 4)) ;;
         cmp (some (s + 3)) (some s) ;; get (s + 3) ;;
         .alt .skip
           (.loop (cmp (some (s + 3)) (some s) ;; mulMpi (s + 2) (some (s + 3)) (some (s + 3)) ;;
              modMpi (s + 3) (s + 2) x ;; get (s + 3)) ;;
            cmp (some (s + 3)) (some s) ;; get (s + 3) ;; mayFail))) := by
    intro f' he hr
    have h1 : Good f' V (W ++ [s, s + 1, s + 2, s + 3, s + 4])
        (if g = true then Cmd.alt (.ret true) .skip else .skip) := by
      split
      · exact (Good.ret (hr (by assumption))).alt Good.skip
      · exact Good.skip
    have h2 : Good f' V (W ++ [s, s + 1, s + 2, s + 3, s + 4]) (expMod (s + 3) (s + 3) (s + 1) x (some (s + 4))) := by
      refine expMod_good he (by simp) (by simp) (by simp) (rd_app hx) ?_
      rintro r ⟨⟩
      exact ⟨by simp, by omega, by omega, by omega, fun h => hsx 4 h.symm⟩
    good
  cases g with
  | false => exact Body.main (key _ hf (by simp))
  | true =>
    refine (?_ : Body { f with r := fun b => b } V W _ _).mono_r (fun _ _ => rfl)
    refine Body.leak (key _ hf fun _ => rfl) ?_
    intro b hb
    simp only at hb
    subst hb
    rcases hg rfl with h | h <;> simp [Fl.lk, Out.isErr, h]
macro_rules | `(tactic| good_rule) => `(tactic| with_reducible apply millerRabin_good)

theorem isPrime_good {g : Bool} (hf : f.er = true) (hx : x ∈ V ∨ x ∈ W) (hg : g = true → f.lo = true ∨ f.le = true) :
    Good f V W (isPrime g x) := by
  unfold isPrime; good

theorem genPrime_good {g : Bool} (hf : f.er = true) (hx : x ∈ W) (hg : g = true → f.lo = true) :
    Good f V W (genPrime g x) := by
  unfold genPrime
  refine (Good.mayFail hf).seq ?_
  refine Good.locals (N := fun t => [t]) (by locs) fun y hy => ?_
  refine Scoped.cleanup hf (N1 := [y]) (fun _ h => h) (Body.main ?_) (nulling_freeAll _ (by simp))
  have hg' : g = true → f.lo = true ∨ f.le = true := fun h => .inl (hg h)
  have h0 : Good { f with r := fun _ => false } V (W ++ [y]) (.ign (setBit x)) :=
    Good.ign (g := {}) (by simp) (by simp) (by simp) (by simp) (setBit_good rfl (by simp [hx]))
  have h1 : Good { f with r := fun _ => false } V (W ++ [y]) (isPrime g x) := isPrime_good hf (by simp [hx]) hg'
  have h2 : Good { f with r := fun _ => false } V (W ++ [y]) (.ign (isPrime g x)) :=
    Good.ign (g := { lo := g }) (by simp) (fun h => hg h) (by simp) (by simp)
      (isPrime_good rfl (by simp [hx]) fun h => .inl h)
  have h3 : Good { f with r := fun _ => false } V (W ++ [y])
      (.ign (checkSmall x ;; checkSmall y ;; millerRabin g x ;; millerRabin g y)) := by
    refine Good.ign (g := { lo := g }) (by simp) (fun h => hg h) (by simp) (by simp) ?_
    have hg1 : g = true → ({ lo := g } : Fl).lo = true ∨ ({ lo := g } : Fl).le = true := fun h => .inl h
    good
  good
macro_rules | `(tactic| good_rule) => `(tactic| with_reducible apply genPrime_good)

end Verif.Heap
