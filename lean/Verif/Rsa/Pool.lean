import Verif.Rsa.Public

/-!
# Copies and pools on limbs compute what `Verif.Tdp` says
-/

namespace Verif.Rsa

open Verif Verif.Bignum Verif.Tdp

theorem freshCopy_run {c : Ctx} (h : Good c) (ht : Trim c) :
    ∃ d, freshCopy c = .ok d ∧ Good d ∧ Trim d ∧ abs d = abs c ∧ d.E.p.length ≤ max 1 (limbs c.E.mag) := by
  obtain ⟨d, d1, d2⟩ := rsaCopy_run h ht
  exact ⟨d, by unfold freshCopy; rw [d1], d2⟩

theorem duplicate_run {c : Ctx} (h : Good c) (ht : Trim c) :
    (Tdp.duplicate (abs c) = .exc .runtimeError ∧ duplicate c = .exc .runtimeError) ∨
      (Tdp.duplicate (abs c) = .ok (abs c) ∧ ∃ d, duplicate c = .ok d ∧ Good d ∧ Trim d ∧ abs d = abs c ∧ Tdp.checkPub (abs c) = true) := by
  obtain ⟨d, d1, d2, d3, d4, _⟩ := rsaCopy_run h ht
  have hc := checkPub_run d2.N d2.E
  rw [d4] at hc
  have e1 : Tdp.rsaCopy (abs c) = abs c := rfl
  unfold duplicate Tdp.duplicate
  rw [d1, e1]
  simp only [toRes, Res.bind_ok]
  rw [hc]
  by_cases hp : Tdp.checkPub (abs c) = true
  · rw [hp]
    exact .inr ⟨rfl, d, rfl, d2, d3, d4, rfl⟩
  · rw [Bool.not_eq_true] at hp
    rw [hp]
    exact .inl ⟨rfl, rfl⟩

theorem checkPub_true {k : Tdp.Rsa} (h : Tdp.checkPub k = true) : k.E < k.N ∧ k.N % 2 = 1 := by
  unfold Tdp.checkPub at h
  split at h
  · simp at h
  · split at h
    · simp at h
    · split at h
      · simp at h
      · omega

/-- The keys of a pool: in shape, with no limb too many in the moduli, and accepted by `mbedtls_rsa_check_pubkey`. -/
structure PoolKey (c : Ctx) : Prop where
  good : Good c
  trim : Trim c
  pub : Tdp.checkPub (abs c) = true

theorem PoolKey.N0 {c : Ctx} (h : PoolKey c) : c.N.p ≠ [] := by
  have h1 := (checkPub_true h.pub).2
  have e1 : (abs c).N = c.N.mag := rfl
  rw [e1] at h1
  exact nonnil_of_mag (by omega)

theorem PoolKey.limbsE {c : Ctx} (h : PoolKey c) : limbs c.E.mag ≤ 300 :=
  limbs_lt (checkPub_true h.pub).1 (limbs_U h.good.N)

/-- The next key of a pool: a copy whose exponent is multiplied by 65537, and the check. -/
theorem nextKey_run {c : Ctx} (h : Good c) (ht : Trim c) {A : Ctx → Arg} (hA : ∀ d : Ctx, Num 400 d.E → d.E.mag = c.E.mag → VA d.E (A d) c.E.mag 400)
    (hn : ∀ d : Ctx, Num 400 d.E → ((A d).get d.E).neg = false) :
    ∃ d, freshCopy c = .ok d ∧ abs { d with E := mulE d.E (A d) } = { Tdp.rsaCopy (abs c) with E := (abs c).E * rsaPk } ∧
      checkPub { d with E := mulE d.E (A d) } =
        (if Tdp.checkPub { Tdp.rsaCopy (abs c) with E := (abs c).E * rsaPk } = true then .ok () else .err .rsa) ∧
      (Tdp.checkPub { Tdp.rsaCopy (abs c) with E := (abs c).E * rsaPk } = true → PoolKey { d with E := mulE d.E (A d) }) := by
  obtain ⟨d, d1, d2, d3, d4, d5⟩ := freshCopy_run h ht
  have hdE : d.E.mag = c.E.mag := congrArg Rsa.E d4
  have hb : V (⟨false, [rsaPk]⟩ : Mpi) ((rsaPk : Nat) : Int) 1 := ⟨⟨by
    intro x hx
    simp only [List.mem_singleton] at hx
    subst hx
    decide, by decide⟩, by decide, by decide⟩
  have hk : limbs rsaPk ≤ 1 := by decide
  have hm : ∀ s, limbs c.E.mag ≤ s → s ≤ 400 → ∃ E, mulE d.E (A d) = E ∧ U E (c.E.mag * rsaPk) (max (max 1 (limbs c.E.mag)) (max 1 (s + 1))) := by
    intro s hs hs4
    have hX : V d.E d.E.toInt (max 1 (limbs c.E.mag)) := ⟨d2.E.wf, rfl, d5⟩
    obtain ⟨R, r1, r2, _, r4⟩ := mul_L hX (hA d d2.E hdE) (VA.ext hb) (sa := s) (sb := 1) (by rw [Int.natAbs_natCast]; exact hs) (by rw [Int.natAbs_natCast]; exact hk) (by omega)
    refine ⟨R, ?_, ?_⟩
    · unfold mulE mulInt
      rw [r1]
    · refine U.of_nonneg ?_ (r4 (hn d d2.E) rfl)
      exact_mod_cast r2
  obtain ⟨E, e1, e2⟩ := hm 400 (by have := limbs_U h.E; exact this) (le_refl _)
  have hn4 : Num 401 E := ⟨e2.wf, e2.pos, rfl, le_trans e2.len (by have := limbs_U h.E; omega)⟩
  have habs : abs { d with E := mulE d.E (A d) } = { Tdp.rsaCopy (abs c) with E := (abs c).E * rsaPk } := by
    have : abs { d with E := mulE d.E (A d) } = { abs d with E := (mulE d.E (A d)).mag } := rfl
    rw [this, d4, e1, e2.val]
    rfl
  refine ⟨d, d1, habs, ?_, ?_⟩
  · have hnE : Num 401 (mulE d.E (A d)) := by rw [e1]; exact hn4
    have hc := checkPub_run (c := { d with E := mulE d.E (A d) }) d2.N hnE
    rw [habs] at hc
    exact hc
  · intro hp
    have h1 : c.E.mag * rsaPk < c.N.mag := (checkPub_true hp).1
    have h2 : limbs c.E.mag ≤ 300 := limbs_lt (lt_of_le_of_lt (Nat.le_mul_of_pos_right _ (by decide)) h1) (limbs_U h.N)
    obtain ⟨E', f1, f2⟩ := hm 300 h2 (by omega)
    have hnE : Num 400 (mulE d.E (A d)) := by
      rw [f1]
      exact ⟨f2.wf, f2.pos, rfl, le_trans f2.len (by omega)⟩
    exact ⟨⟨d2.N, hnE, d2.D, d2.P, d2.Q, d2.DP, d2.DQ, d2.QP, d2.RN, d2.RP, d2.RQ, d2.Vi, d2.Vf, d2.vi, d2.vf⟩, ⟨d3.N, d3.P, d3.Q⟩, by rw [habs]; exact hp⟩

theorem poolLoop_run : ∀ (left : Nat) {prev : Ctx}, Good prev → Trim prev →
    match Tdp.poolLoop left (abs prev) with
    | .ok l => ∃ m, poolLoop left prev = .ok m ∧ m.map abs = l ∧ ∀ c ∈ m, PoolKey c
    | r => r = .exc .runtimeError ∧ poolLoop left prev = .exc .runtimeError := by
  intro left
  induction left with
  | zero => intro prev _ _; exact ⟨[], rfl, rfl, by simp⟩
  | succ left ih =>
    intro prev h ht
    obtain ⟨d, d1, d2, d3, d4⟩ := nextKey_run h ht (A := fun _ => .ext prev.E) (fun d _ _ => VA.ext h.E.v) (fun d _ => h.E.pos)
    unfold poolLoop Tdp.poolLoop
    rw [d1]
    simp only [toRes, Res.bind_ok]
    rw [d3]
    by_cases hp : Tdp.checkPub { Tdp.rsaCopy (abs prev) with E := (abs prev).E * rsaPk } = true
    · have hk := d4 hp
      rw [if_neg (by rw [hp]; simp), if_pos hp]
      simp only [toRes, Res.bind_ok]
      have := ih hk.good hk.trim
      rw [d2] at this
      revert this
      cases Tdp.poolLoop left { Tdp.rsaCopy (abs prev) with E := (abs prev).E * rsaPk } with
      | ok l =>
        rintro ⟨m, m1, m2, m3⟩
        rw [m1]
        refine ⟨_, rfl, ?_, ?_⟩
        · simp only [List.map_cons, m2, d2]
        · intro c hc
          rcases List.mem_cons.1 hc with rfl | hc
          · exact hk
          · exact m3 c hc
      | exc e =>
        rintro ⟨m1, m2⟩
        rw [m2]
        exact ⟨by rw [Res.exc.injEq] at m1; rw [m1]; rfl, rfl⟩
      | ub =>
        rintro ⟨m1, _⟩
        cases m1
    · rw [if_pos (by simpa using hp), if_neg hp]
      exact ⟨rfl, rfl⟩

/-- What a pool says. -/
def absPool (p : Pool) : Tdp.Pool := { base := abs p.base, keys := p.keys.map abs, count := p.count }

/-- The pools that the constructors build. -/
structure GoodPool (p : Pool) : Prop where
  base : PoolKey p.base
  keys : ∀ c ∈ p.keys, PoolKey c

theorem mkPool_run {c : Ctx} (h : PoolKey c) (size : Nat) :
    match Tdp.mkPool (abs c) size with
    | .ok q => ∃ p, mkPool c size = .ok p ∧ absPool p = q ∧ GoodPool p
    | r => mkPool c size = (match r with | .exc e => .exc e | _ => .ub) := by
  unfold mkPool Tdp.mkPool
  by_cases h0 : size = 0
  · simp only [if_pos h0]
  simp only [if_neg h0]
  by_cases h1 : (size + 255) % 256 = 0
  · simp only [if_pos h1]
  simp only [if_neg h1]
  obtain ⟨n, hn⟩ : ∃ n, (size + 255) % 256 = n + 1 := ⟨(size + 255) % 256 - 1, by omega⟩
  rw [hn]
  obtain ⟨d, d1, d2, d3, d4⟩ := nextKey_run h.good h.trim (A := fun _ => .self) (fun d hd hm => by
    have := VA.self hd.v
    rwa [hm] at this) (fun d hd => hd.pos)
  rw [d1]
  simp only [toRes, Res.bind_ok]
  rw [d3]
  rw [Tdp.poolLoop]
  by_cases hp : Tdp.checkPub { Tdp.rsaCopy (abs c) with E := (abs c).E * rsaPk } = true
  · have hk := d4 hp
    simp only [if_neg (show ¬ Tdp.checkPub { Tdp.rsaCopy (abs c) with E := (abs c).E * rsaPk } = false by rw [hp]; simp), if_pos hp]
    simp only [toRes, Res.bind_ok, Nat.add_sub_cancel]
    have := poolLoop_run n hk.good hk.trim
    rw [d2] at this
    revert this
    cases Tdp.poolLoop n { Tdp.rsaCopy (abs c) with E := (abs c).E * rsaPk } with
    | ok l =>
      rintro ⟨m, m1, m2, m3⟩
      rw [m1]
      refine ⟨_, rfl, ?_, ⟨h, ?_⟩⟩
      · show (⟨abs c, _, _⟩ : Tdp.Pool) = ⟨abs c, _, _⟩
        simp only [List.map_cons, m2, d2]
      · intro c hc
        rcases List.mem_cons.1 hc with rfl | hc
        · exact hk
        · exact m3 c hc
    | exc e =>
      rintro ⟨m1, m2⟩
      rw [m2]
      rw [Res.exc.injEq] at m1
      rw [m1]
      rfl
    | ub =>
      rintro ⟨m1, _⟩
      cases m1
  · simp only [if_pos (show Tdp.checkPub { Tdp.rsaCopy (abs c) with E := (abs c).E * rsaPk } = false by simpa using hp), if_neg hp]
    rfl

theorem copyKeys_run : ∀ {l : List Ctx}, (∀ c ∈ l, PoolKey c) →
    ∃ m, copyKeys l = .ok m ∧ Tdp.copyKeys (l.map abs) = .ok (l.map abs) ∧ m.map abs = l.map abs ∧ ∀ c ∈ m, PoolKey c := by
  intro l
  induction l with
  | nil => intro _; exact ⟨[], rfl, rfl, rfl, by simp⟩
  | cons k l ih =>
    intro h
    have hk := h k (by simp)
    obtain ⟨d, d1, d2, d3, d4, _⟩ := freshCopy_run hk.good hk.trim
    have hc := checkPub_run d2.N d2.E
    rw [d4, hk.pub, if_pos rfl] at hc
    obtain ⟨m, m1, m2, m3, m4⟩ := ih (fun c hc => h c (by simp [hc]))
    have e1 : Tdp.rsaCopy (abs k) = abs k := rfl
    refine ⟨d :: m, ?_, ?_, ?_, ?_⟩
    · unfold copyKeys
      rw [d1]
      simp only [toRes, Res.bind_ok]
      rw [hc]
      simp only [Res.bind_ok]
      rw [m1]
      rfl
    · simp only [List.map_cons]
      unfold Tdp.copyKeys
      rw [e1, if_neg (by rw [hk.pub]; simp), m2]
      rfl
    · simp only [List.map_cons, d4, m3]
    · intro c hc
      rcases List.mem_cons.1 hc with rfl | hc
      · exact ⟨d2, d3, by rw [d4]; exact hk.pub⟩
      · exact m4 c hc

theorem poolCopy_run {p : Pool} (h : GoodPool p) :
    ∃ q, p.copy = .ok q ∧ GoodPool q ∧ absPool q = absPool p ∧ (absPool p).copy = .ok (absPool p) := by
  obtain ⟨m, m1, m2, m3, m4⟩ := copyKeys_run h.keys
  have e1 : Tdp.rsaCopy (abs p.base) = abs p.base := rfl
  rcases duplicate_run h.base.good h.base.trim with ⟨a, _⟩ | ⟨a, d, d1, d2, d3, d4, d5⟩
  · exfalso
    unfold Tdp.duplicate at a
    rw [e1, if_neg (by rw [h.base.pub]; simp)] at a
    cases a
  · refine ⟨⟨d, m, p.count⟩, ?_, ⟨⟨d2, d3, by rw [d4]; exact d5⟩, m4⟩, ?_, ?_⟩
    · unfold Pool.copy
      rw [d1]
      simp only [Res.bind_ok]
      rw [m1]
      rfl
    · unfold absPool
      simp only [d4, m3]
    · unfold Tdp.Pool.copy absPool
      simp only
      rw [e1, if_neg (by rw [d5]; simp), m2]
      rfl

theorem poolAssign_run {p t : Pool} (hp : GoodPool p) (ht : GoodPool t) :
    ∃ q, p.assign t = .ok q ∧ GoodPool q ∧ (absPool p).assign (absPool t) = .ok (absPool q) := by
  obtain ⟨m, m1, m2, m3, m4⟩ := copyKeys_run ht.keys
  refine ⟨⟨p.base, m, t.count⟩, ?_, ⟨hp.base, m4⟩, ?_⟩
  · unfold Pool.assign
    rw [m1]
    rfl
  · unfold Tdp.Pool.assign absPool
    simp only
    rw [m2, m3]
    rfl

theorem PoolKey.setRN {c : Ctx} (h : PoolKey c) {RN : Mpi} (hg : Good { c with RN := RN }) : PoolKey { c with RN := RN } :=
  ⟨hg, ⟨h.trim.N, h.trim.P, h.trim.Q⟩, h.pub⟩

/-- `eval_pool` with the key `k`. -/
theorem poolEval_run {k : Ctx} (h : PoolKey k) {inp : Bytes} (hi : inp.length = 256) :
    ∃ RN, (evalEnd k (poolExp k inp)).2 = { k with RN := RN } ∧ Good { k with RN := RN } ∧
      (evalEnd k (poolExp k inp)).1 = (do
        let y ← orThrow .runtimeError (mpiExpMod (beNat inp) k.E.mag k.N.mag)
        writeIgnored y : Res Bytes) := by
  obtain ⟨T, t1, t2, _⟩ := read_U U.null.v (b := inp) (by unfold maxLimbs; omega)
  unfold poolExp
  rw [t1, Out.bind_ok]
  exact evalEnd_run h.good h.N0 (t2.mono (by omega))

theorem evalPool_run {p : Pool} (h : GoodPool p) {inp : Bytes} (hi : inp.length = 256) (order : Nat) :
    GoodPool (evalPool p inp order).2 ∧ absPool (evalPool p inp order).2 = absPool p ∧ (evalPool p inp order).1 = Tdp.evalPool (absPool p) inp order := by
  unfold evalPool Tdp.evalPool
  have el : (absPool p).base.len = p.base.len := rfl
  rw [el]
  by_cases h1 : order = 1
  · have s1 : p.select order = .ok p.base := by unfold Pool.select; rw [if_pos h1]
    have s2 : (absPool p).select order = .ok (abs p.base) := by unfold Tdp.Pool.select; rw [if_pos h1]; rfl
    rw [s1, s2]
    simp only [Res.bind_ok]
    by_cases hl : msgSize ≠ p.base.len
    · rw [if_pos hl, if_pos hl]
      exact ⟨h, rfl, rfl⟩
    · rw [if_neg hl, if_neg hl]
      obtain ⟨RN, r1, r2, r3⟩ := poolEval_run h.base hi
      simp only
      rw [r1, r3]
      have hu : p.update order { p.base with RN := RN } = ⟨{ p.base with RN := RN }, p.keys, p.count⟩ := by unfold Pool.update; rw [if_pos h1]
      rw [hu]
      exact ⟨⟨h.base.setRN r2, h.keys⟩, rfl, rfl⟩
  · by_cases h2 : order ≤ p.maxOrder
    · by_cases h3 : order < 2
      · have s1 : p.select order = .ub := by unfold Pool.select; rw [if_neg h1, if_pos h2, if_pos h3]
        have s2 : (absPool p).select order = .ub := by
          unfold Tdp.Pool.select
          rw [if_neg h1, if_pos (show order ≤ (absPool p).maxOrder from h2), if_pos h3]
        rw [s1, s2]
        exact ⟨h, rfl, rfl⟩
      · cases hk : p.keys[order - 2]? with
        | none =>
          have s1 : p.select order = .ub := by unfold Pool.select; rw [if_neg h1, if_pos h2, if_neg h3, hk]
          have s2 : (absPool p).select order = .ub := by
            unfold Tdp.Pool.select
            rw [if_neg h1, if_pos (show order ≤ (absPool p).maxOrder from h2), if_neg h3]
            show (match (p.keys.map abs)[order - 2]? with | some k => Res.ok k | none => Res.ub) = _
            rw [List.getElem?_map, hk]
            rfl
          rw [s1, s2]
          exact ⟨h, rfl, rfl⟩
        | some k =>
          have s1 : p.select order = .ok k := by unfold Pool.select; rw [if_neg h1, if_pos h2, if_neg h3, hk]
          have s2 : (absPool p).select order = .ok (abs k) := by
            unfold Tdp.Pool.select
            rw [if_neg h1, if_pos (show order ≤ (absPool p).maxOrder from h2), if_neg h3]
            show (match (p.keys.map abs)[order - 2]? with | some k => Res.ok k | none => Res.ub) = _
            rw [List.getElem?_map, hk]
            rfl
          rw [s1, s2]
          simp only [Res.bind_ok]
          by_cases hl : msgSize ≠ p.base.len
          · rw [if_pos hl, if_pos hl]
            exact ⟨h, rfl, rfl⟩
          · rw [if_neg hl, if_neg hl]
            have hkk := h.keys k (List.mem_of_getElem? hk)
            obtain ⟨RN, r1, r2, r3⟩ := poolEval_run hkk hi
            simp only
            rw [r1, r3]
            have hu : p.update order { k with RN := RN } = ⟨p.base, p.keys.set (order - 2) { k with RN := RN }, p.count⟩ := by unfold Pool.update; rw [if_neg h1]
            rw [hu]
            refine ⟨⟨h.base, ?_⟩, ?_, rfl⟩
            · intro c hc
              rcases List.mem_or_eq_of_mem_set hc with hc | rfl
              · exact h.keys c hc
              · exact hkk.setRN r2
            · show (⟨abs p.base, _, p.count⟩ : Tdp.Pool) = ⟨abs p.base, _, p.count⟩
              congr 1
              rw [List.map_set]
              have : abs { k with RN := RN } = abs k := rfl
              rw [this]
              apply List.ext_getElem? 
              intro i
              rw [List.getElem?_set]
              split
              · next hi =>
                subst hi
                have hlt : order - 2 < (p.keys.map abs).length := by
                  rw [List.length_map]
                  exact (List.getElem?_eq_some_iff.1 hk).1
                rw [if_pos hlt, List.getElem?_map, hk]
                rfl
              · rfl
    · have s1 : p.select order = .exc .invalidArgument := by unfold Pool.select; rw [if_neg h1, if_neg h2]
      have s2 : (absPool p).select order = .exc .invalidArgument := by
        unfold Tdp.Pool.select
        rw [if_neg h1, if_neg (show ¬ order ≤ (absPool p).maxOrder from h2)]
      rw [s1, s2]
      exact ⟨h, rfl, rfl⟩

end Verif.Rsa
