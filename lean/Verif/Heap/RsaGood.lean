/-
Every function of `src/mbedtls/rsa.c` and of the key import keeps the invariant of the storage.
-/
import Verif.Heap.ExpGood
import Verif.Heap.Rsa

namespace Verif.Heap

variable {f : Fl} {V W N : List Nat} {x y a b n e t k d h : Nat} {c : Cmd}

/-- The integers of a context may be written. -/
structure CtxW (W : List Nat) (k : Nat) : Prop where
  h0 : k ∈ W
  h1 : k + 1 ∈ W
  h2 : k + 2 ∈ W
  h3 : k + 3 ∈ W
  h4 : k + 4 ∈ W
  h5 : k + 5 ∈ W
  h6 : k + 6 ∈ W
  h7 : k + 7 ∈ W
  h8 : k + 8 ∈ W
  h9 : k + 9 ∈ W
  h10 : k + 10 ∈ W
  h11 : k + 11 ∈ W
  h12 : k + 12 ∈ W

/-- The integers of a context may be read. -/
structure CtxR (V W : List Nat) (k : Nat) : Prop where
  h0 : k ∈ V ∨ k ∈ W
  h1 : k + 1 ∈ V ∨ k + 1 ∈ W
  h2 : k + 2 ∈ V ∨ k + 2 ∈ W
  h3 : k + 3 ∈ V ∨ k + 3 ∈ W
  h4 : k + 4 ∈ V ∨ k + 4 ∈ W
  h5 : k + 5 ∈ V ∨ k + 5 ∈ W
  h6 : k + 6 ∈ V ∨ k + 6 ∈ W
  h7 : k + 7 ∈ V ∨ k + 7 ∈ W
  h8 : k + 8 ∈ V ∨ k + 8 ∈ W
  h9 : k + 9 ∈ V ∨ k + 9 ∈ W
  h10 : k + 10 ∈ V ∨ k + 10 ∈ W
  h11 : k + 11 ∈ V ∨ k + 11 ∈ W
  h12 : k + 12 ∈ V ∨ k + 12 ∈ W

theorem mem_ctx : x ∈ ctx k ↔ k ≤ x ∧ x < k + 13 := by
  simp only [ctx, List.mem_cons, List.not_mem_nil, or_false]; omega

theorem CtxW.of (hk : ∀ x ∈ ctx k, x ∈ W) : CtxW W k := by
  constructor <;> exact hk _ (by simp [ctx])

theorem CtxR.of (hk : ∀ x ∈ ctx k, x ∈ V ∨ x ∈ W) : CtxR V W k := by
  constructor <;> exact hk _ (by simp [ctx])

theorem CtxW.mem (hk : CtxW W k) : ∀ x ∈ ctx k, x ∈ W := by
  obtain ⟨h0, h1, h2, h3, h4, h5, h6, h7, h8, h9, h10, h11, h12⟩ := hk
  simp only [ctx, List.forall_mem_cons]
  exact ⟨h0, h1, h2, h3, h4, h5, h6, h7, h8, h9, h10, h11, h12, fun _ h => by cases h⟩

theorem CtxW.app (hk : CtxW W k) : CtxW (W ++ N) k :=
  CtxW.of fun x hx => List.mem_append_left _ (hk.mem x hx)

theorem CtxW.r (hk : CtxW W k) : CtxR V W k :=
  CtxR.of fun x hx => .inr (hk.mem x hx)

theorem CtxR.mem (hk : CtxR V W k) : ∀ x ∈ ctx k, x ∈ V ∨ x ∈ W := by
  obtain ⟨h0, h1, h2, h3, h4, h5, h6, h7, h8, h9, h10, h11, h12⟩ := hk
  simp only [ctx, List.forall_mem_cons]
  exact ⟨h0, h1, h2, h3, h4, h5, h6, h7, h8, h9, h10, h11, h12, fun _ h => by cases h⟩

theorem CtxR.app (hk : CtxR V W k) : CtxR V (W ++ N) k :=
  CtxR.of fun x hx => rd_app (hk.mem x hx)

theorem CtxW.loc : CtxW (W ++ ctx k) k := CtxW.of fun _ h => List.mem_append_right _ h

/-- `expMod` with a cache. -/
theorem expModS_good {r : Nat} (hf : f.er = true) (hx : x ∈ W) (ha : a ∈ V ∨ a ∈ W)
    (he : e ∈ V ∨ e ∈ W) (hn : n ∈ V ∨ n ∈ W) (hr : r ∈ W) (h1 : r ≠ x) (h2 : r ≠ a) (h3 : r ≠ e) (h4 : r ≠ n) :
    Good f V W (expMod x a e n (some r)) :=
  expMod_good hf hx ha he hn fun r' h => by cases h; exact ⟨hr, h1, h2, h3, h4⟩

theorem rsaFree_null (hk : CtxW W k) : Nulling V W (ctx k) (rsaFree k) := by
  obtain ⟨h0, h1, h2, h3, h4, h5, h6, h7, h8, h9, h10, h11, h12⟩ := hk
  refine (nulling_freeAll _ ?_).sub ?_
  · simp only [List.forall_mem_cons]
    exact ⟨h11, h12, h10, h9, h8, h7, h6, h5, h4, h3, h2, h1, h0, fun _ h => by cases h⟩
  · intro x hx
    rw [mem_ctx] at hx
    simp only [List.mem_cons, List.not_mem_nil, or_false]
    omega

theorem rsaFree_good (hk : CtxW W k) : Good f V W (rsaFree k) := (rsaFree_null hk).good

theorem genKey_good {g : Bool} (hf : f.er = true) (hk : CtxW W k) (hg : g = true → f.lo = true) :
    Good f V W (genKey g k) := by
  unfold genKey
  refine (Good.mayFail hf).seq ((Good.mayFail hf).seq ?_)
  refine Good.locals (N := fun s => [s, s + 1, s + 2, s + 3]) (by locs) fun s hs => ?_
  refine Scoped.onErr ?_ (rsaFree_good hk)
  refine Scoped.cleanup hf (N1 := [s, s + 1, s + 2, s + 3]) (fun _ h => h) (Body.main ?_) (nulling_freeAll _ (by simp))
  obtain ⟨h0, h1, h2, h3, h4, h5, h6, h7, h8, h9, h10, h11, h12⟩ := hk
  good

theorem checkPubkey_good (hf : f.er = true) (h0 : k ∈ V ∨ k ∈ W) (h1 : k + 1 ∈ V ∨ k + 1 ∈ W) :
    Good f V W (checkPubkey k) := by
  unfold checkPubkey; good
macro_rules | `(tactic| good_rule) => `(tactic| with_reducible apply checkPubkey_good)

theorem checkPrivkey_good (hf : f.er = true) (hk : CtxR V W k) : Good f V W (checkPrivkey k) := by
  unfold checkPrivkey
  obtain ⟨h0, h1, h2, h3, h4, h5, h6, h7, h8, h9, h10, h11, h12⟩ := hk
  refine (checkPubkey_good hf h0 h1).seq ?_
  refine Good.ifNull h3 (Good.fail hf) (Good.ifNull h4 (Good.fail hf) (Good.ifNull h2 (Good.fail hf) ?_))
  refine Good.locals (N := ctx) (fun b x => mem_ctx) fun s hs => ?_
  refine Scoped.cleanup hf (N1 := ctx s) (fun _ h => h) (Body.main ?_)
    (nulling_freeAll _ (fun x hx => List.mem_append_right _ hx))
  unfold ctx
  good

theorem checkPubPriv_good (hf : f.er = true) (hk : CtxR V W k) (hd : CtxR V W d) : Good f V W (checkPubPriv k d) := by
  have h0 := hk.h0
  have h1 := hk.h1
  have g0 := hd.h0
  have g1 := hd.h1
  have := checkPrivkey_good hf hd
  unfold checkPubPriv; good

theorem rsaPublic_good (hf : f.er = true) (h0 : k ∈ V ∨ k ∈ W) (h1 : k + 1 ∈ V ∨ k + 1 ∈ W) (h8 : k + 8 ∈ W) :
    Good f V W (rsaPublic k) := by
  unfold rsaPublic
  refine Good.locals (N := fun s => [s]) (by locs) fun s hs => ?_
  refine Scoped.cleanup hf (N1 := [s]) (fun _ h => h) (Body.main ?_) (nulling_freeAll _ (by simp))
  have hlt := hs (k + 8) (.inr h8)
  have : Good { f with r := fun _ => false } V (W ++ [s]) (expMod s s (k + 1) k (some (k + 8))) :=
    expModS_good hf (by simp) (by simp) (rd_app h1) (rd_app h0) (by simp [h8]) (by omega) (by omega) (by omega) (by omega)
  good

theorem prepareBlinding_good (hf : f.er = true) (h0 : k ∈ V ∨ k ∈ W) (h1 : k + 1 ∈ V ∨ k + 1 ∈ W) (h8 : k + 8 ∈ W)
    (h11 : k + 11 ∈ W) (h12 : k + 12 ∈ W) : Good f V W (prepareBlinding k) := by
  unfold prepareBlinding
  have : Good f V W (expMod (k + 11) (k + 11) (k + 1) k (some (k + 8))) :=
    expModS_good hf h11 (.inr h11) h1 h0 h8 (by omega) (by omega) (by omega) (by omega)
  good
macro_rules | `(tactic| good_rule) => `(tactic| with_reducible apply prepareBlinding_good)

/-- An `mbedtls_mpi_lset` whose result is not looked at. -/
theorem ignLset_good (hx : x ∈ W) : Good f V W (.ign (lset x)) :=
  Good.ign (g := {}) (by simp) (by simp) (by simp) (by simp) (lset_good rfl hx)
macro_rules | `(tactic| good_rule) => `(tactic| with_reducible apply ignLset_good)

theorem rsaPrivateMain_good {rng : Bool} {s : Nat} (hf : f.er = true) (hk : CtxW W k) (hs : ∀ x ∈ W, x < s)
    (hN : ∀ i, i < (if rng then 8 else 6) → s + i ∈ N) : Good f V (W ++ N) (rsaPrivateMain rng k s) := by
  obtain ⟨h0, h1, h2, h3, h4, h5, h6, h7, h8, h9, h10, h11, h12⟩ := hk
  have l9 := hs _ h9
  have l10 := hs _ h10
  have n0 : s ∈ W ++ N := List.mem_append_right _ (hN 0 (by split <;> omega))
  have n1 : s + 1 ∈ W ++ N := List.mem_append_right _ (hN 1 (by split <;> omega))
  have n2 : s + 2 ∈ W ++ N := List.mem_append_right _ (hN 2 (by split <;> omega))
  have n3 : s + 3 ∈ W ++ N := List.mem_append_right _ (hN 3 (by split <;> omega))
  have n4 : s + 4 ∈ W ++ N := List.mem_append_right _ (hN 4 (by split <;> omega))
  have n5 : s + 5 ∈ W ++ N := List.mem_append_right _ (hN 5 (by split <;> omega))
  unfold rsaPrivateMain
  cases rng with
  | false =>
    simp only [Bool.false_eq_true, if_false]
    have e1 : Good f V (W ++ N) (expMod (s + 1) s (k + 5) (k + 3) (some (k + 9))) :=
      expModS_good hf n1 (.inr n0) (.inr (by simp [h5])) (.inr (by simp [h3])) (by simp [h9]) (by omega) (by omega)
        (by omega) (by omega)
    have e2 : Good f V (W ++ N) (expMod (s + 2) s (k + 6) (k + 4) (some (k + 10))) :=
      expModS_good hf n2 (.inr n0) (.inr (by simp [h6])) (.inr (by simp [h4])) (by simp [h10]) (by omega) (by omega)
        (by omega) (by omega)
    good
  | true =>
    have n6 : s + 6 ∈ W ++ N := List.mem_append_right _ (hN 6 (by simp))
    have n7 : s + 7 ∈ W ++ N := List.mem_append_right _ (hN 7 (by simp))
    simp only [if_true]
    have e1 : Good f V (W ++ N) (expMod (s + 1) s (s + 6) (k + 3) (some (k + 9))) :=
      expModS_good hf n1 (.inr n0) (.inr n6) (.inr (by simp [h3])) (by simp [h9]) (by omega) (by omega)
        (by omega) (by omega)
    have e2 : Good f V (W ++ N) (expMod (s + 2) s (s + 7) (k + 4) (some (k + 10))) :=
      expModS_good hf n2 (.inr n0) (.inr n7) (.inr (by simp [h4])) (by simp [h10]) (by omega) (by omega)
        (by omega) (by omega)
    good

theorem rsaPrivate_good {rng : Bool} (hf : f.er = true) (hk : CtxW W k) : Good f V W (rsaPrivate rng k) := by
  unfold rsaPrivate
  refine Good.ifNull (.inr hk.h3) (Good.fail hf) (Good.ifNull (.inr hk.h4) (Good.fail hf)
    (Good.ifNull (.inr hk.h2) (Good.fail hf) ?_))
  cases rng with
  | false =>
    simp only [Bool.false_eq_true, if_false]
    refine Good.locals (N := fun s => [s, s + 1, s + 2, s + 3, s + 4, s + 5]) (by locs) fun s hs => ?_
    refine Scoped.cleanup hf (N1 := [s, s + 1, s + 2, s + 3, s + 4, s + 5]) (fun _ h => h) (Body.main ?_) ?_
    · refine rsaPrivateMain_good hf hk (fun x hx => hs x (.inr hx)) ?_
      intro i hi
      simp only [Bool.false_eq_true, if_false] at hi
      simp only [List.mem_cons, List.not_mem_nil, or_false]
      omega
    · refine Nulling.seq ?_ (Nulling.seq ?_ (Nulling.seq ?_ (Nulling.seq ?_ (Nulling.seq ?_ (Nulling.seq ?_
        (nulling_freeAll _ (by simp))))))) <;> exact ignLset_good (by simp)
  | true =>
    simp only [if_true]
    refine Good.locals (N := fun s => [s, s + 1, s + 2, s + 3, s + 4, s + 5, s + 6, s + 7]) (by locs) fun s hs => ?_
    refine Scoped.cleanup hf (N1 := [s, s + 1, s + 2, s + 3, s + 4, s + 5, s + 6, s + 7]) (fun _ h => h) (Body.main ?_) ?_
    · refine rsaPrivateMain_good hf hk (fun x hx => hs x (.inr hx)) ?_
      intro i hi
      simp only [if_true] at hi
      simp only [List.mem_cons, List.not_mem_nil, or_false]
      omega
    · refine Nulling.seq ?_ (Nulling.seq ?_ (Nulling.seq ?_ (Nulling.seq ?_ (Nulling.seq ?_ (Nulling.seq ?_ ?_)))))
      iterate 6 exact ignLset_good (by simp)
      exact (nulling_freeAll _ (by simp)).keep (N1 := [s + 6, s + 7])
        (Nulling.seq (ignLset_good (by simp)) (Nulling.seq (ignLset_good (by simp)) (nulling_freeAll _ (by simp))))
        (by simp) (by simp)

theorem rsaCopy_good (hf : f.er = true) (hd : CtxW W d) (hk : CtxR V W k) : Good f V W (rsaCopy d k) := by
  unfold rsaCopy
  refine Good.onEnd ?_ Good.skip (rsaFree_good hd) hf
  obtain ⟨h0, h1, h2, h3, h4, h5, h6, h7, h8, h9, h10, h11, h12⟩ := hd
  obtain ⟨g0, g1, g2, g3, g4, g5, g6, g7, g8, g9, g10, g11, g12⟩ := hk
  have he : ({ f with er := true } : Fl).er = true := rfl
  good

/-! ### Import -/

theorem pkFree_null (hk : CtxW W k) (hh : h ∈ W) (hne : h ∉ ctx k) : Nulling V W (ctx k ++ [h]) (pkFree h k) :=
  (rsaFree_null hk).keep (N1 := [h]) (nulling_free (by simp)) hk.mem (by simpa using hh)

theorem pkFree_good (hk : CtxW W k) (hh : h ∈ W) : Good f V W (pkFree h k) :=
  (rsaFree_good hk).seq (Good.free hh)
macro_rules | `(tactic| good_rule) => `(tactic| with_reducible apply pkFree_good)

theorem pkSetup_good (hf : f.er = true) (hh : h ∈ W) : Good f V W (pkSetup h) := by
  unfold pkSetup; good
macro_rules | `(tactic| good_rule) => `(tactic| with_reducible apply pkSetup_good)

theorem getMpi_good (hf : f.er = true) (hx : x ∈ W) : Good f V W (getMpi x) := by
  unfold getMpi; good
macro_rules | `(tactic| good_rule) => `(tactic| with_reducible apply getMpi_good)

theorem getRsapubkey_good (hf : f.er = true) (h0 : k ∈ W) (h1 : k + 1 ∈ W) : Good f V W (getRsapubkey k) := by
  unfold getRsapubkey; good

theorem parseSubpubkey_good (hf : f.er = true) (hk : CtxW W k) (hh : h ∈ W) : Good f V W (parseSubpubkey h k) := by
  have h1 : Good f V W (.onEnd (getRsapubkey k ;; mayFail) .skip (pkFree h k)) :=
    Good.onEnd ((getRsapubkey_good rfl hk.h0 hk.h1).seq (Good.mayFail rfl)) Good.skip (pkFree_good hk hh) hf
  unfold parseSubpubkey; good

theorem pkcs1Der_good (hf : f.er = true) (hk : CtxW W k) : Good f V W (pkcs1Der k) := by
  have hd : Good f V W (rsaFree k) := rsaFree_good hk
  unfold pkcs1Der
  refine (Good.mayFail hf).seq ((Good.mayFail hf).seq ((Good.mayFail hf).seq ?_))
  refine Good.onEnd ?_ Good.skip (rsaFree_good hk) hf
  have he : ({ f with er := true } : Fl).er = true := rfl
  have hp := checkPrivkey_good (f := { f with er := true }) (V := V) he hk.r
  obtain ⟨h0, h1, h2, h3, h4, h5, h6, h7, h8, h9, h10, h11, h12⟩ := hk
  good

theorem pkcs8Der_good (hf : f.er = true) (hk : CtxW W k) (hh : h ∈ W) : Good f V W (pkcs8Der h k) := by
  have h1 : Good f V W (.onEnd (pkcs1Der k) .skip (pkFree h k)) :=
    Good.onEnd (pkcs1Der_good rfl hk) Good.skip (pkFree_good hk hh) hf
  unfold pkcs8Der; good

theorem pemRead_good (hf : f.er = true) (hd : f.d = true) (hb : b ∈ W) : Good f V W (pemRead b) := by
  have := Good.rawFree (V := V) hd hb
  unfold pemRead; good

theorem ignPemRead_good (hd : f.d = true) (hb : b ∈ W) : Good f V W (.ign (pemRead b)) :=
  Good.ign (g := { d := true }) (by simp) (by simp) (fun _ => hd) (by simp) (pemRead_good rfl rfl hb)

/-- A scope that ends with `free` of its only local. -/
theorem Scoped.raw {s : Nat} (hf : f.er = true) (hd : f.d = true) (hc : Good { f with r := fun _ => false } V (W ++ [s]) c) :
    Scoped f V W [s] (Heap.cleanup c (rawFree s)) := by
  intro L e σ o σ' hI hs hn hr
  have hs1 : ∀ x, x ∈ V ∨ x ∈ W ++ [s] → x < σ.nv ∧ ¬ e x := by
    intro x hx
    rcases hx with hx | hx
    · exact ⟨(hs x (.inl hx)).1, (hs x (.inl hx)).2.1⟩
    · rcases List.mem_append.1 hx with h | h
      · exact ⟨(hs x (.inr h)).1, (hs x (.inr h)).2.1⟩
      · exact ⟨(hn x h).1, (hn x h).2.1⟩
  have hraw : ∀ {L1 σ1 o σ2}, Inv L1 e σ1 → σ1.nv = σ.nv → Run (rawFree s) σ1 o σ2 →
      o = .ok ∧ Frame (W ++ [s]) σ1 σ2 ∧ ∃ L2, Ext f .ok L1 L2 ∧ Inv L2 e σ2 ∧ Null σ2 s := by
    intro L1 σ1 o σ2 hI1 hnv h
    cases h with
    | prim ch hst =>
      have hsS := hn s (by simp)
      obtain ⟨σ3, h1, h2, h3, h4⟩ := rawFree_step (W := W ++ [s]) hI1 (by rw [hnv]; exact hsS.1) hsS.2.1 (by simp)
      simp only [step, h1, Prod.mk.injEq] at hst
      obtain ⟨rfl, rfl⟩ := hst
      refine ⟨rfl, h3, _, ?_, h2, h4⟩
      exact ⟨fun _ h => h, fun _ h => .inl h, fun _ _ h => h, fun h => by rw [hd] at h; cases h⟩
  unfold Heap.cleanup at hr
  cases hr with
  | endOk h1 h2 =>
    obtain ⟨f1, g1, L1, x1, i1⟩ := hc L e σ _ _ hI hs1 h1
    obtain ⟨rfl, g2, L2, x2, i2, n2⟩ := hraw i1 g1.nv h2
    refine ⟨Flow.okF, g1.trans g2, L2, ?_, done_of_null i2 (by simpa using n2)⟩
    exact x1.trans x2 (fun h => ⟨h, h⟩) (fun h => ⟨h, h⟩)
  | endErr h1 h2 =>
    obtain ⟨f1, g1, L1, x1, i1⟩ := hc L e σ _ _ hI hs1 h1
    obtain ⟨rfl, g2, L2, x2, i2, n2⟩ := hraw i1 g1.nv h2
    refine ⟨Flow.errF hf, g1.trans g2, L2, ?_, done_of_null i2 (by simpa using n2)⟩
    exact x1.trans x2 (fun h => ⟨h, Fl.lk_ok h⟩) (fun h => ⟨h, h⟩)
  | endStop h1 h2 h3 =>
    obtain ⟨f1, _⟩ := hc L e σ _ _ hI hs1 h1
    have h4 := f1.ub
    have h5 := f1.ret
    cases o <;> simp_all

theorem parseKey_good (hf : f.er = true) (hd : f.d = true) (hk : CtxW W k) (hh : h ∈ W) : Good f V W (parseKey h k) := by
  unfold parseKey
  refine Good.locals (N := fun s => [s]) (by locs) fun s hs => ?_
  refine Scoped.raw hf hd ?_
  have hk' : CtxW (W ++ [s]) k := hk.app
  have hh' : h ∈ W ++ [s] := by simp [hh]
  have hs' : s ∈ W ++ [s] := by simp
  have hm : ∀ f' : Fl, f'.er = true → f'.d = true → Good f' V (W ++ [s])
      (.onEnd (pkcs8Der h k) .skip (pkFree h k)) := fun f' hf' hd' =>
    Good.onEnd (pkcs8Der_good rfl hk' hh') Good.skip (pkFree_good hk' hh') hf'
  have h2 : Good { f with r := fun _ => false } V (W ++ [s]) (.ign (.onEnd (pkcs8Der h k) .skip (pkFree h k))) :=
    Good.ign (g := {}) (by simp) (by simp) (by simp) (by simp)
      (Good.onEnd (pkcs8Der_good rfl hk' hh') Good.skip (pkFree_good hk' hh') rfl)
  have h3 : Good { f with r := fun _ => false } V (W ++ [s]) (.ign (pkSetup h)) :=
    Good.ign (g := {}) (by simp) (by simp) (by simp) (by simp) (pkSetup_good rfl hh')
  have h4 : Good { f with r := fun _ => false } V (W ++ [s]) (.onEnd (pkcs1Der k) .skip (pkFree h k)) :=
    Good.onEnd (pkcs1Der_good rfl hk') Good.skip (pkFree_good hk' hh') hf
  have h5 : Good { f with r := fun _ => false } V (W ++ [s]) (.onEnd (pkSetup h ;; pkcs1Der k) .skip (pkFree h k)) :=
    Good.onEnd ((pkSetup_good rfl hh').seq (pkcs1Der_good rfl hk')) Good.skip (pkFree_good hk' hh') hf
  have h6 : Good { f with r := fun _ => false } V (W ++ [s]) (.ign (pemRead s)) := ignPemRead_good hd hs'
  have h7 := hm { f with r := fun _ => false } hf hd
  good

theorem parsePublicKey_good (hf : f.er = true) (hd : f.d = true) (hk : CtxW W k) (hh : h ∈ W) :
    Good f V W (parsePublicKey h k) := by
  unfold parsePublicKey
  refine Good.locals (N := fun s => [s]) (by locs) fun s hs => ?_
  refine Scoped.raw hf hd ?_
  have h1 : Good { f with r := fun _ => false } V (W ++ [s]) (.ign (pemRead s)) := ignPemRead_good hd (by simp)
  have h2 : Good { f with r := fun _ => false } V (W ++ [s]) (parseSubpubkey h k) :=
    parseSubpubkey_good hf hk.app (by simp [hh])
  good

theorem ignRsaCopy_good (hd : CtxW W d) (hk : CtxR V W k) : Good f V W (.ign (rsaCopy d k)) :=
  Good.ign (g := {}) (by simp) (by simp) (by simp) (by simp) (rsaCopy_good rfl hd hk)

theorem mem_pk {s : Nat} : x ∈ ctx s ++ [s + 13] ↔ s ≤ x ∧ x < s + 14 := by
  rw [List.mem_append, mem_ctx, List.mem_singleton]; omega

theorem rsaParsePublicKey_good (hf : f.er = true) (hd : f.d = true) (hk : CtxW W k) :
    Good f V W (rsaParsePublicKey k) := by
  unfold rsaParsePublicKey
  refine Good.locals (N := fun s => ctx s ++ [s + 13]) (fun _ _ => mem_pk) fun s hs => ?_
  have hl : CtxW (W ++ (ctx s ++ [s + 13])) s := CtxW.of fun x hx => by simp [hx]
  have hh : s + 13 ∈ W ++ (ctx s ++ [s + 13]) := by simp
  refine Scoped.cleanup hf (N1 := ctx s ++ [s + 13]) (fun _ h => h) (Body.main ?_)
    (pkFree_null hl hh (by rw [mem_ctx]; omega))
  exact Good.seq (parsePublicKey_good hf hd hl hh) (Good.ifNull (.inr hh) (Good.fail hf) (ignRsaCopy_good hk.app hl.r))

theorem rsaParseKey_good (hf : f.er = true) (hd : f.d = true) (hk : CtxW W k) : Good f V W (rsaParseKey k) := by
  unfold rsaParseKey
  refine Good.locals (N := fun s => ctx s ++ [s + 13]) (fun _ _ => mem_pk) fun s hs => ?_
  have hl : CtxW (W ++ (ctx s ++ [s + 13])) s := CtxW.of fun x hx => by simp [hx]
  have hh : s + 13 ∈ W ++ (ctx s ++ [s + 13]) := by simp
  refine Scoped.cleanup hf (N1 := ctx s ++ [s + 13]) (fun _ h => h) (Body.main ?_)
    (pkFree_null hl hh (by rw [mem_ctx]; omega))
  exact Good.seq (parseKey_good hf hd hl hh) (Good.ifNull (.inr hh) (Good.fail hf) (ignRsaCopy_good hk.app hl.r))

/-! ### Export -/

theorem writeMpi_good (hf : f.er = true) (hx : x ∈ V ∨ x ∈ W) : Good f V W (writeMpi x) := by
  unfold writeMpi; good
macro_rules | `(tactic| good_rule) => `(tactic| with_reducible apply writeMpi_good)

theorem pemWrite_good (hf : f.er = true) (hd : f.d = true) : Good f V W pemWrite := by
  unfold pemWrite
  refine Good.locals (N := fun s => [s]) (by locs) fun s hs => ?_
  refine Scoped.raw hf hd ?_
  good

theorem writePubkeyPem_good (hf : f.er = true) (hd : f.d = true) (hk : CtxR V W k) : Good f V W (writePubkeyPem k) := by
  have h0 := hk.h0
  have h1 := hk.h1
  have := pemWrite_good (V := V) (W := W) hf hd
  unfold writePubkeyPem; good

theorem writeKeyPem_good (hf : f.er = true) (hd : f.d = true) (hk : CtxR V W k) : Good f V W (writeKeyPem k) := by
  have := pemWrite_good (V := V) (W := W) hf hd
  obtain ⟨h0, h1, h2, h3, h4, h5, h6, h7, h8, h9, h10, h11, h12⟩ := hk
  unfold writeKeyPem; good

end Verif.Heap
