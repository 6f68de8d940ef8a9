import Verif.Rsa.Ops

/-!
# The private operation on limbs computes what `Verif.Tdp` says
-/

namespace Verif.Rsa

open Verif Verif.Bignum Verif.Tdp

/-! ## Running computations -/

theorem bind_apply {α β : Type} (x : St α) (f : α → St β) (c : Ctx) (i : Nat) : (x >>= f) c i = St.next (x c i) f := rfl
theorem pure_apply {α : Type} (a : α) (c : Ctx) (i : Nat) : (pure a : St α) c i = (.ok a, c, i) := rfl
theorem next_ok {α β : Type} (a : α) (c : Ctx) (i : Nat) (f : α → St β) : St.next (.ok a, c, i) f = f a c i := rfl
theorem next_err {α β : Type} (e : Err) (c : Ctx) (i : Nat) (f : α → St β) : St.next (.err e, c, i) f = (.err e, c, i) := rfl
theorem of_apply {α : Type} (x : Out α) (c : Ctx) (i : Nat) : St.of x c i = (x, c, i) := rfl
theorem get_apply (c : Ctx) (i : Nat) : St.get c i = (.ok c, c, i) := rfl
theorem put_apply (d c : Ctx) (i : Nat) : St.put d c i = (.ok (), d, i) := rfl

theorem get_bind {β : Type} (f : Ctx → St β) (c : Ctx) (i : Nat) : (St.get >>= f) c i = f c c i := rfl
theorem put_bind {β : Type} (d : Ctx) (f : Unit → St β) (c : Ctx) (i : Nat) : (St.put d >>= f) c i = f () d i := rfl
theorem of_bind_ok {α β : Type} {x : Out α} {a : α} (h : x = .ok a) (f : α → St β) (c : Ctx) (i : Nat) : (St.of x >>= f) c i = f a c i := by
  subst h; rfl
theorem of_bind_err {α β : Type} {x : Out α} {e : Err} (h : x = .err e) (f : α → St β) (c : Ctx) (i : Nat) : (St.of x >>= f) c i = (.err e, c, i) := by
  subst h; rfl
theorem rand_bind_ok {α β : Type} {r : Run α} {a : α} {i j : Nat} (h : r i = (.ok a, j)) (f : α → St β) (c : Ctx) : (St.rand r >>= f) c i = f a c j := by
  show St.next ((r i).1, c, (r i).2) f = _
  rw [h]
  rfl
theorem bind_ok {α β : Type} {x : St α} {a : α} {c d : Ctx} {i j : Nat} (h : x c i = (.ok a, d, j)) (f : α → St β) : (x >>= f) c i = f a d j := by
  rw [bind_apply, h]; rfl
theorem bind_err {α β : Type} {x : St α} {e : Err} {c d : Ctx} {i j : Nat} (h : x c i = (.err e, d, j)) (f : α → St β) :
    (x >>= f) c i = (.err e, d, j) := by
  rw [bind_apply, h]; rfl

/-! ## Contexts -/

/-- A well-formed integer without a sign in at most `k` limbs. -/
def Num (k : Nat) (X : Mpi) : Prop := U X X.mag k

theorem U.num {X : Mpi} {n k : Nat} (h : U X n k) : Num k X := ⟨h.wf, h.pos, rfl, h.len⟩

/-- The contexts for which the private operation is studied. -/
structure Good (c : Ctx) : Prop where
  N : Num 300 c.N
  E : Num 400 c.E
  D : Num 5000 c.D
  P : Num 300 c.P
  Q : Num 300 c.Q
  DP : Num 300 c.DP
  DQ : Num 300 c.DQ
  QP : Num 300 c.QP
  RN : CacheOk c.N (some c.RN)
  RP : CacheOk c.P (some c.RP)
  RQ : CacheOk c.Q (some c.RQ)
  Vi : Num 1000 c.Vi
  Vf : Num 1000 c.Vf
  vi : limbs c.Vi.mag ≤ 301
  vf : limbs c.Vf.mag ≤ 301

/-- The values of a context. -/
def abs (c : Ctx) : Rsa where
  len := c.len
  N := c.N.mag
  E := c.E.mag
  priv := if c.P.p = [] ∨ c.Q.p = [] ∨ c.D.p = [] then none
    else some { D := c.D.mag, P := c.P.mag, Q := c.Q.mag, DP := c.DP.mag, DQ := c.DQ.mag, QP := c.QP.mag }
  blind := if c.Vf.p = [] then none else some (c.Vi.mag, c.Vf.mag)

/-- The two outcomes say the same: the value, or an error code (which `Verif.Tdp` does not keep apart). -/
def Same {α : Type} (x : Out α) (y : Option α) : Prop :=
  match y with
  | some a => x = .ok a
  | none => ∃ e, x = .err e

theorem limbs_U {X : Mpi} {n k : Nat} (h : U X n k) : limbs n ≤ k := by
  have := limbs_le_of h.v
  rwa [h.val] at this

theorem limbs_lt {n m k : Nat} (h : n < m) (hm : limbs m ≤ k) : limbs n ≤ k := by
  rw [limbs_le_iff] at *
  exact lt_trans h hm

/-! ## Blinding values -/

/-- One of the two squarings. -/
theorem square_U {X N : Mpi} (hX : Num 1000 X) (hx : limbs X.mag ≤ 301) (hN : Num 300 N) (hN0 : 0 < N.mag) :
    ∃ R S, mulMpi X .self .self = .ok R ∧ modMpi R .self N = .ok S ∧ U S (X.mag * X.mag % N.mag) 1000 ∧ S.p ≠ [] ∧ limbs S.mag ≤ 301 := by
  obtain ⟨R, r1, r2, r3, r4⟩ := mul_L hX.v (VA.self hX.v) (VA.self hX.v) (sa := 301) (sb := 301) (by rw [Int.natAbs_natCast]; exact hx)
    (by rw [Int.natAbs_natCast]; exact hx) (by omega)
  obtain ⟨S, s1, s2, s3, s4⟩ := mod_V r2 (VA.self r2) hN.v hN0 (by omega)
  have hu : U S (X.mag * X.mag % N.mag) 1000 := by
    refine U.of_nonneg ?_ (s4 (r4 hX.pos hX.pos))
    have := s2.mono (l := 1000) (by omega)
    exact_mod_cast this
  refine ⟨R, S, r1, s1, hu, s3 r3, ?_⟩
  rw [hu.val]
  exact limbs_lt (Nat.mod_lt _ hN0) (le_trans (limbs_U hN) (by omega))

theorem squareBlinding_run {c : Ctx} (h : Good c) (hN : 0 < c.N.mag) (i : Nat) :
    ∃ Vi Vf, squareBlinding c i = (.ok (), { c with Vi := Vi, Vf := Vf }, i) ∧
      U Vi (c.Vi.mag * c.Vi.mag % c.N.mag) 1000 ∧ U Vf (c.Vf.mag * c.Vf.mag % c.N.mag) 1000 ∧ Vf.p ≠ [] ∧ limbs Vi.mag ≤ 301 ∧ limbs Vf.mag ≤ 301 := by
  obtain ⟨R, S, r1, r2, r3, r4, r5⟩ := square_U h.Vi h.vi h.N hN
  obtain ⟨T, W, t1, t2, t3, t4, t5⟩ := square_U h.Vf h.vf h.N hN
  refine ⟨S, W, ?_, r3, t3, t4, r5, t5⟩
  unfold squareBlinding
  rw [get_bind, of_bind_ok r1, put_bind, of_bind_ok r2, put_bind, of_bind_ok t1, put_bind, of_bind_ok t2, put_apply]

theorem cmpOne {X : Mpi} {n k : Nat} (h : V X n k) : cmpInt X 1 ≠ 0 ↔ n ≠ 1 := by
  rw [cmpInt_spec h.wf (by decide), Ne, sgn_zero_iff, h.val]
  omega

theorem drawBlinding_run {g : Rng} (hg : Total g) {len : Nat} (hlen : 1 ≤ len) (hlen2 : len ≤ 1024) {N : Mpi} (hN : Num 300 N) (hN0 : 0 < N.mag) :
    ∀ (n : Nat) (c : Ctx) (i : Nat), c.len = len → c.N = N → Num 1000 c.Vi → Num 1000 c.Vf → limbs c.Vi.mag ≤ 301 → limbs c.Vf.mag ≤ 301 →
      ∃ Vi Vf o j, drawBlinding g n c i = (o, { c with Vi := Vi, Vf := Vf }, j) ∧ Num 1000 Vi ∧ Num 1000 Vf ∧ limbs Vi.mag ≤ 301 ∧ limbs Vf.mag ≤ 301 ∧
        (0 < n → Vf.p ≠ []) ∧
        ((o = .ok () ∧ drawVf (nums g) N.mag len n i c.Vi.mag c.Vf.mag = (true, Vi.mag, Vf.mag, j)) ∨
         (o = .err .rsa ∧ drawVf (nums g) N.mag len n i c.Vi.mag c.Vf.mag = (false, Vi.mag, Vf.mag, j)))
  | 0, c, i, _, _, h1, h2, h3, h4 => ⟨c.Vi, c.Vf, .err .rsa, i, rfl, h1, h2, h3, h4, fun h => absurd h (by omega), .inr ⟨rfl, rfl⟩⟩
  | n + 1, c, i, hl, hNc, h1, h2, h3, h4 => by
    have hw : (c.len + (W64 - 1)) % W64 = len - 1 := by
      rw [hl, show len + (W64 - 1) = (len - 1) + W64 by omega, Nat.add_mod_right, Nat.mod_eq_of_lt (by omega)]
    obtain ⟨R, r1, r2, r3⟩ := fill_U hg h2.v (n := (c.len + (W64 - 1)) % W64) (by rw [hw]; unfold mpiMaxSize; omega) i
    rw [hw] at r2
    have hRl : limbs R.mag ≤ 128 := by
      obtain ⟨b, b1, b2⟩ := hg i (len - 1)
      rw [limbs_le_iff, r2.val]
      unfold nums
      rw [b1]
      have := beNat_lt b
      rw [b2] at this
      refine lt_of_lt_of_le this ?_
      rw [show W64 = 256 ^ 8 by norm_num, ← pow_mul]
      exact Nat.pow_le_pow_right (by decide) (by omega)
    obtain ⟨G, g1, g2⟩ := gcd_V h1.v r2.v (hNc ▸ hN).v
    rw [Int.natAbs_natCast, Int.natAbs_natCast, hNc] at g2
    have hlenR : max 1000 ((len - 1) / 8 + 1) ≤ 1000 := by omega
    have hGpos : 0 < mpiGcd (nums g i (len - 1)) N.mag := by
      unfold mpiGcd; rw [if_neg (by omega)]; exact Nat.gcd_pos_of_pos_right _ hN0
    have hG := U.of_pos (g2.mono (l := 1000) (by omega)) hGpos
    have hGl : limbs G.mag ≤ 301 := by
      rw [hG.val]
      have h5 : mpiGcd (nums g i (len - 1)) N.mag ≤ N.mag := by
        unfold mpiGcd; rw [if_neg (by omega)]; exact Nat.gcd_le_right _ hN0
      exact limbs_lt (Nat.lt_succ_of_le h5) (by
        have := limbs_U hN
        have h6 : N.mag < W64 ^ 300 := (limbs_le_iff _ _).1 this
        rw [limbs_le_iff]
        have h7 : W64 ^ 301 = W64 ^ 300 * W64 := pow_succ _ _
        rw [h7]
        generalize W64 ^ 300 = w at *
        omega)
    have e1 : drawBlinding g (n + 1) c i =
        if cmpInt G 1 ≠ 0 then drawBlinding g n { c with Vf := R, Vi := G } (i + 1) else (.ok (), { c with Vf := R, Vi := G }, i + 1) := by
      rw [drawBlinding, get_bind, rand_bind_ok r1, put_bind, of_bind_ok g1, put_bind]
      split <;> rfl
    have e2 : drawVf (nums g) N.mag len (n + 1) i c.Vi.mag c.Vf.mag =
        if mpiGcd (nums g i (len - 1)) N.mag = 1 then (true, mpiGcd (nums g i (len - 1)) N.mag, nums g i (len - 1), i + 1)
        else drawVf (nums g) N.mag len n (i + 1) (mpiGcd (nums g i (len - 1)) N.mag) (nums g i (len - 1)) := rfl
    rw [e1, e2]
    by_cases h1' : mpiGcd (nums g i (len - 1)) N.mag = 1
    · rw [if_neg (by rw [cmpOne g2]; exact not_not.2 h1'), if_pos h1']
      refine ⟨G, R, .ok (), i + 1, rfl, hG.num, r2.num.mono hlenR, hGl, by omega, fun _ => r3, .inl ⟨rfl, ?_⟩⟩
      rw [hG.val, r2.val]
    · rw [if_pos (by rw [cmpOne g2]; exact h1'), if_neg h1']
      obtain ⟨Vi, Vf, o, j, q1, q2, q3, q4, q5, q6, q7⟩ := drawBlinding_run hg hlen hlen2 hN hN0 n { c with Vf := R, Vi := G } (i + 1) hl hNc hG.num
        (r2.num.mono hlenR) hGl (by show limbs R.mag ≤ 301; omega)
      have e3 : ({ c with Vf := R, Vi := G } : Ctx).Vi.mag = mpiGcd (nums g i (len - 1)) N.mag := hG.val
      have e4 : ({ c with Vf := R, Vi := G } : Ctx).Vf.mag = nums g i (len - 1) := r2.val
      rw [e3, e4] at q7
      refine ⟨Vi, Vf, o, j, q1, q2, q3, q4, q5, fun _ => ?_, q7⟩
      rcases Nat.eq_zero_or_pos n with h0 | h0
      · subst h0
        have : drawBlinding g 0 { c with Vf := R, Vi := G } (i + 1) = (.err .rsa, { c with Vf := R, Vi := G }, i + 1) := rfl
        rw [this] at q1
        simp only [Prod.mk.injEq, Ctx.mk.injEq] at q1
        rw [← q1.2.1.2.2.2.2.2.2.2.2.2.2.2.2.2]
        exact r3
      · exact q6 h0

theorem Good.setBlind {c : Ctx} (h : Good c) {Vi Vf RN : Mpi} (h1 : Num 1000 Vi) (h2 : Num 1000 Vf) (h3 : limbs Vi.mag ≤ 301) (h4 : limbs Vf.mag ≤ 301)
    (h5 : CacheOk c.N (some RN)) : Good { c with Vi := Vi, Vf := Vf, RN := RN } :=
  ⟨h.N, h.E, h.D, h.P, h.Q, h.DP, h.DQ, h.QP, h5, h.RP, h.RQ, h1, h2, h3, h4⟩

theorem prepareBlinding_run {g : Rng} (hg : Total g) {c : Ctx} (h : Good c) (hlen : 1 ≤ c.len) (hlen2 : c.len ≤ 1024) (hN0 : 0 < c.N.mag) (i : Nat) :
    ∃ Vi Vf RN o j b, prepareBlinding g c i = (o, { c with Vi := Vi, Vf := Vf, RN := RN }, j) ∧ Good { c with Vi := Vi, Vf := Vf, RN := RN } ∧ Vf.p ≠ [] ∧
      prepBlind (nums g) (abs c) i = (b, (Vi.mag, Vf.mag), j) ∧ (b = true → o = .ok ()) ∧ (b = false → ∃ e, o = .err e) := by
  by_cases hv : c.Vf.p = []
  · obtain ⟨Vi, Vf, o, j, q1, q2, q3, q4, q5, q6, q7⟩ := drawBlinding_run hg hlen hlen2 h.N hN0 11 c i rfl rfl h.Vi h.Vf h.vi h.vf
    have hb : prepBlind (nums g) (abs c) i = match drawVf (nums g) c.N.mag c.len 11 i c.Vi.mag c.Vf.mag with
      | (false, vi, vf, i') => (false, (vi, vf), i')
      | (true, vi, vf, i') =>
        match mpiInv vf c.N.mag with
        | none => (false, (vi, vf), i')
        | some inv =>
          match mpiExpMod inv c.E.mag c.N.mag with
          | none => (false, (inv, vf), i')
          | some vi' => (true, (vi', vf), i') := by
      unfold prepBlind abs
      simp only [hv, if_true]
      rfl
    have hp : prepareBlinding g c i = (do
        drawBlinding g 11
        let c ← St.get
        let Vi ← St.of (invMod c.Vi c.Vf c.N)
        St.put { c with Vi := Vi }
        let Vi ← expN Vi
        let c ← St.get
        St.put { c with Vi := Vi } : St Unit) c i := by
      unfold prepareBlinding
      rw [get_bind, if_neg (not_not.2 hv)]
    rw [hb, hp]
    rcases q7 with ⟨rfl, q7⟩ | ⟨rfl, q7⟩
    · rw [q7, bind_ok q1, get_bind]
      simp only
      have hi := inv_U q2.v q3.v h.N.v (by omega) (by omega)
      cases hm : mpiInv Vf.mag c.N.mag with
      | none =>
        rw [hm] at hi
        obtain ⟨e, e1⟩ := hi
        rw [of_bind_err e1]
        exact ⟨Vi, Vf, c.RN, _, j, false, rfl, h.setBlind q2 q3 q4 q5 h.RN, q6 (by omega), rfl, by simp, fun _ => ⟨e, rfl⟩⟩
      | some v =>
        rw [hm] at hi
        obtain ⟨R, r1, r2, r3⟩ := hi
        rw [of_bind_ok r1, put_bind]
        have hvl : v < c.N.mag := (mpiInv_lt hm).1
        have hRl : limbs R.mag ≤ 301 := by
          rw [r2.val]
          exact limbs_lt hvl (le_trans (limbs_U h.N) (by omega))
        have he := exp_U (X := R) (A := .self) r2.v (VA.self r2.v) r2.pos (by simp) h.E.v h.N (nonnil_of_mag (by omega)) (by omega) (by omega) h.RN
        simp only
        cases hx : mpiExpMod v c.E.mag c.N.mag with
        | none =>
          rw [hx] at he
          simp only at he
          rw [bind_err (e := .badInput) (d := { c with Vi := R, Vf := Vf }) (j := j) (by unfold expN; rw [get_bind, of_bind_err he])]
          refine ⟨R, Vf, c.RN, _, j, false, rfl, h.setBlind (r2.num.mono (by omega)) q3 hRl q5 h.RN, q6 (by omega), ?_, by simp, fun _ => ⟨_, rfl⟩⟩
          rw [r2.val]
        | some w =>
          rw [hx] at he
          obtain ⟨S, rr, s1, s2, s3, s4⟩ := he
          have hwl : limbs S.mag ≤ 301 := by
            have hw : w < c.N.mag := by
              unfold mpiExpMod at hx
              split at hx
              · simp at hx
              · rw [Option.some.injEq] at hx
                rw [← hx]
                exact Nat.mod_lt _ hN0
            rw [s2.val]
            exact limbs_lt hw (le_trans (limbs_U h.N) (by omega))
          rw [bind_ok (a := S) (d := { c with Vi := R, Vf := Vf, RN := rr }) (j := j) (by
            unfold expN
            rw [get_bind, of_bind_ok s1, put_bind, pure_apply]
            rfl), get_bind, put_apply]
          refine ⟨S, Vf, rr, _, j, true, rfl, h.setBlind (s2.num.mono (by omega)) q3 hwl q5 s4, q6 (by omega), ?_, fun _ => rfl, by simp⟩
          rw [s2.val]
    · rw [q7, bind_err q1]
      exact ⟨Vi, Vf, c.RN, _, j, false, rfl, h.setBlind q2 q3 q4 q5 h.RN, q6 (by omega), rfl, by simp, fun _ => ⟨_, rfl⟩⟩
  · obtain ⟨Vi, Vf, q1, q2, q3, q4, q5, q6⟩ := squareBlinding_run h hN0 i
    refine ⟨Vi, Vf, c.RN, .ok (), i, true, ?_, h.setBlind q2.num q3.num q5 q6 h.RN, q4, ?_, fun _ => rfl, by simp⟩
    · unfold prepareBlinding
      rw [get_bind, if_pos hv, q1]
    · unfold prepBlind abs
      simp only [hv, if_false]
      unfold mpiMod
      rw [if_neg (by omega), if_neg (by omega), q2.val, q3.val]
      simp only [Prod.mk.injEq, true_and, and_true]
      constructor
      · rw [← Int.natCast_mod, Int.toNat_natCast]
      · rw [← Int.natCast_mod, Int.toNat_natCast]

/-! ## The computation -/

theorem blindExponent_run {g : Rng} (hg : Total g) {P1 D R : Mpi} {p : Int} {r : Int} (hP : V P1 p 301) (hD : Num 300 D) (hR : V R r 4) (c : Ctx) (i : Nat) :
    ∃ X S, blindExponent g P1 D R c i = (.ok (X, S), c, i + 1) ∧ V X (p * nums g i 28 + D.mag) 400 ∧ V S (nums g i 28) 4 := by
  obtain ⟨S, s1, s2, _⟩ := fill_U hg hR (n := 28) (by decide) i
  obtain ⟨Y, y1, y2, _⟩ := mul_V U.null.v (VA.ext hP) (VA.ext s2.v) (by omega)
  obtain ⟨X, x1, x2⟩ := add_V y2 (VA.self y2) (VA.ext hD.v) (by omega) (by omega)
  refine ⟨X, S, ?_, x2.mono (by omega), s2.v.mono (by omega)⟩
  unfold blindExponent
  rw [rand_bind_ok s1, of_bind_ok y1, of_bind_ok x1, pure_apply]

/-- The values of the Chinese remainder computation. -/
def crtVal (s : Priv) (t dp dq : Nat) : Option Nat := do
  let T1 ← mpiExpMod t dp s.P
  let T2 ← mpiExpMod t dq s.Q
  let T ← mpiMod (((T1 : Int) - T2) * s.QP) s.P
  pure (T2 + T * s.Q)

theorem Good.setCache {c : Ctx} (h : Good c) {RP RQ : Mpi} (h1 : CacheOk c.P (some RP)) (h2 : CacheOk c.Q (some RQ)) : Good { c with RP := RP, RQ := RQ } :=
  ⟨h.N, h.E, h.D, h.P, h.Q, h.DP, h.DQ, h.QP, h.RN, h1, h2, h.Vi, h.Vf, h.vi, h.vf⟩

theorem crt_run {c : Ctx} (h : Good c) (hP : c.P.p ≠ []) (hQ : c.Q.p ≠ []) {T X Y S : Mpi} {t : Nat} (hT : U T t 430) (hT0 : T.p ≠ []) {sv : Int} (hS : V S sv 430)
    {x y : Int} {dp dq : Nat} (hX : V X x 1000) (hY : V Y y 1000) (hx : c.P.mag % 2 = 1 → x = dp) (hy : c.Q.mag % 2 = 1 → y = dq) {s : Priv}
    (sP : s.P = c.P.mag) (sQ : s.Q = c.Q.mag) (sI : s.QP = c.QP.mag) (i : Nat) :
    ∃ RP RQ o, crt S T X Y c i = (o, { c with RP := RP, RQ := RQ }, i) ∧ Good { c with RP := RP, RQ := RQ } ∧
      match crtVal s t dp dq with
      | some v => ∃ R, o = .ok R ∧ V R v 731
      | none => ∃ e, o = .err e := by
  unfold crt crtVal
  rw [get_bind, sP, sQ, sI]
  by_cases h1 : c.P.mag % 2 = 0
  · rw [of_bind_err (exp_even hX h.P hP h1)]
    refine ⟨c.RP, c.RQ, _, rfl, h, ?_⟩
    have e1 : mpiExpMod t dp c.P.mag = none := by unfold mpiExpMod; rw [if_pos h1]
    rw [e1]
    exact ⟨_, rfl⟩
  have hx' := hx (by omega)
  subst hx'
  have he := exp_U (X := .null) U.null.v (VA.ext hT.v) hT.pos (by rintro m hm; cases hm; exact hT0) hX h.P hP (by omega) (by omega) h.RP
  have e1 : mpiExpMod t dp c.P.mag = some (t ^ dp % c.P.mag) := by unfold mpiExpMod; rw [if_neg h1]
  rw [e1] at he ⊢
  obtain ⟨A, ra, a1, a2, a3, a4⟩ := he
  rw [of_bind_ok a1, put_bind]
  by_cases h2 : c.Q.mag % 2 = 0
  · rw [of_bind_err (exp_even hY h.Q hQ h2)]
    refine ⟨ra, c.RQ, _, rfl, h.setCache a4 h.RQ, ?_⟩
    have e2 : mpiExpMod t dq c.Q.mag = none := by unfold mpiExpMod; rw [if_pos h2]
    rw [e2]
    exact ⟨_, rfl⟩
  have hy' := hy (by omega)
  subst hy'
  have he := exp_U (X := .null) U.null.v (VA.ext hT.v) hT.pos (by rintro m hm; cases hm; exact hT0) hY h.Q hQ (by omega) (by omega) h.RQ
  have e2 : mpiExpMod t dq c.Q.mag = some (t ^ dq % c.Q.mag) := by unfold mpiExpMod; rw [if_neg h2]
  rw [e2] at he ⊢
  obtain ⟨B, rb, b1, b2, b3, b4⟩ := he
  rw [of_bind_ok b1, put_bind]
  generalize hav : t ^ dp % c.P.mag = av at *
  generalize hbv : t ^ dq % c.Q.mag = bv at *
  obtain ⟨C, c1, c2⟩ := sub_V hS (VA.ext a2.v) (VA.ext b2.v) (by omega) (by omega)
  obtain ⟨D, d1, d2, _⟩ := mul_V a2.v (VA.ext c2) (VA.ext h.QP.v) (by omega)
  obtain ⟨E, f1, f2, _⟩ := mod_V c2 (VA.ext d2) h.P.v (by omega) (by omega)
  obtain ⟨F, g1, g2, _⟩ := mul_V d2 (VA.ext f2) (VA.ext h.Q.v) (by omega)
  obtain ⟨R, r1, r2⟩ := add_V f2 (VA.ext b2.v) (VA.ext g2) (by omega) (by omega)
  simp only
  rw [of_bind_ok c1, of_bind_ok d1, of_bind_ok f1, of_bind_ok g1, of_apply]
  refine ⟨ra, rb, _, rfl, h.setCache a4 b4, ?_⟩
  have e3 : mpiMod (((av : Int) - bv) * c.QP.mag) c.P.mag = some ((((av : Int) - bv) * c.QP.mag) % (c.P.mag : Int)).toNat := by
    unfold mpiMod; rw [if_neg (by omega)]
  show match (do
      let T1 ← some av
      let T2 ← some bv
      let T ← mpiMod (((T1 : Int) - T2) * c.QP.mag) c.P.mag
      pure (T2 + T * c.Q.mag) : Option Nat) with
    | some v => _
    | none => _
  simp only [Option.bind_eq_bind, Option.bind_some, e3]
  refine ⟨R, r1, ?_⟩
  have := r2.mono (l := 731) (by omega)
  have hnn := Int.emod_nonneg (((av : Int) - bv) * c.QP.mag) (b := (c.P.mag : Int)) (by omega)
  have e4 : ((bv + ((((av : Int) - bv) * c.QP.mag) % (c.P.mag : Int)).toNat * c.Q.mag : Nat) : Int) =
      (bv : Int) + (((av : Int) - bv) * c.QP.mag) % (c.P.mag : Int) * c.Q.mag := by
    push_cast
    rw [Int.toNat_of_nonneg hnn]
  rw [e4]
  exact this

/-- The values of the part after the blinding values are there. -/
theorem crtPrivate_eq (N : Nat) (s : Priv) (vi vf T R1 R2 : Nat) (hN : 0 < N) :
    crtPrivate N s vi vf T R1 R2 = (crtVal s (T * vi % N) ((s.P - 1) * R1 + s.DP) ((s.Q - 1) * R2 + s.DQ)).map fun y => y * vf % N := by
  have e1 : ∀ x : Nat, mpiMod ((x : Nat) : Int) N = some (x % N) := fun x => by
    unfold mpiMod
    rw [if_neg (by omega), ← Int.natCast_mod, Int.toNat_natCast]
  unfold crtPrivate crtVal
  rw [e1]
  simp only [Option.bind_eq_bind, Option.bind_some, e1]
  cases mpiExpMod (T * vi % N) ((s.P - 1) * R1 + s.DP) s.P with
  | none => rfl
  | some a =>
    cases mpiExpMod (T * vi % N) ((s.Q - 1) * R2 + s.DQ) s.Q with
    | none => rfl
    | some b =>
      simp only [Option.bind_some]
      cases mpiMod (((a : Int) - b) * s.QP) s.P with
      | none => rfl
      | some d => rfl

theorem blindedPrivate_run {g : Rng} (hg : Total g) {c : Ctx} (h : Good c) (hN0 : 0 < c.N.mag) (hP : c.P.p ≠ []) (hQ : c.Q.p ≠ []) {T : Mpi} {t : Nat}
    (hT : U T t 129) {s : Priv} (sP : s.P = c.P.mag) (sQ : s.Q = c.Q.mag) (sDP : s.DP = c.DP.mag) (sDQ : s.DQ = c.DQ.mag) (sI : s.QP = c.QP.mag) (i : Nat) :
    ∃ RP RQ o, blindedPrivate g T c i = (o, { c with RP := RP, RQ := RQ }, i + 2) ∧ Good { c with RP := RP, RQ := RQ } ∧
      Same o ((crtPrivate c.N.mag s c.Vi.mag c.Vf.mag t (nums g i 28) (nums g (i + 1) 28)).bind fun y => mpiWrite y c.len) := by
  obtain ⟨A, a1, a2, a3, a4⟩ := mul_L hT.v (VA.self hT.v) (VA.ext h.Vi.v) (sa := 129) (sb := 301) (by rw [Int.natAbs_natCast]; exact limbs_U hT)
    (by rw [Int.natAbs_natCast]; exact h.vi) (by omega)
  obtain ⟨B, b1, b2, b3, b4⟩ := mod_V a2 (VA.self a2) h.N.v hN0 (by omega)
  have hB : U B (t * c.Vi.mag % c.N.mag) 430 := by
    refine U.of_nonneg ?_ (b4 (a4 hT.pos h.Vi.pos))
    have := b2.mono (l := 430) (by omega)
    exact_mod_cast this
  obtain ⟨P1, p1, p2⟩ := sub1_V U.null.v (VA.ext h.P.v) (by omega)
  obtain ⟨Q1, q1, q2⟩ := sub1_V U.null.v (VA.ext h.Q.v) (by omega)
  obtain ⟨X, S, x1, x2, x3⟩ := blindExponent_run hg (p2.mono (l := 301) (by omega)) h.DP (U.null.v.mono (l := 4) (by omega)) c i
  obtain ⟨Y, S', y1, y2, y3⟩ := blindExponent_run hg (q2.mono (l := 301) (by omega)) h.DQ x3 c (i + 1)
  have key : ∀ {p r d : Nat}, p % 2 = 1 → ((p : Int) - 1) * r + d = (((p - 1) * r + d : Nat) : Int) := fun {p r d} hp => by
    push_cast [Nat.cast_sub (show 1 ≤ p by omega)]
    ring
  obtain ⟨RP, RQ, o, o1, o2, o3⟩ := crt_run h hP hQ hB (b3 a3) hB.v (x2.mono (by omega)) (y2.mono (by omega)) key key sP sQ sI (i + 2) (s := s)
  have run : blindedPrivate g T c i = (do
      let T ← crt B B X Y
      let T ← St.of (mulMpi T .self (.ext c.Vf))
      let T ← St.of (modMpi T .self c.N)
      St.of (writeBinary T c.len) : St Bytes) c (i + 2) := by
    unfold blindedPrivate
    rw [get_bind, of_bind_ok a1, of_bind_ok b1, of_bind_ok p1, of_bind_ok q1, bind_ok x1, bind_ok y1]
  rw [run, crtPrivate_eq _ _ _ _ _ _ _ hN0]
  have e1 : c.P.mag - 1 = s.P - 1 := by rw [sP]
  have e2 : c.Q.mag - 1 = s.Q - 1 := by rw [sQ]
  rw [e1, e2, ← sDP, ← sDQ] at o3
  cases hv : crtVal s (t * c.Vi.mag % c.N.mag) ((s.P - 1) * nums g i 28 + s.DP) ((s.Q - 1) * nums g (i + 1) 28 + s.DQ) with
  | none =>
    rw [hv] at o3
    obtain ⟨e, rfl⟩ := o3
    rw [bind_err o1]
    exact ⟨RP, RQ, _, rfl, o2, e, rfl⟩
  | some v =>
    rw [hv] at o3
    obtain ⟨R, rfl, r1⟩ := o3
    obtain ⟨K, k1, k2, k3, k4⟩ := mul_L r1 (VA.self r1) (VA.ext h.Vf.v) (sa := 731) (sb := 301)
      (by have := limbs_le_of r1; rwa [r1.mag] at this) (by rw [Int.natAbs_natCast]; exact h.vf) (by omega)
    obtain ⟨L, l1, l2, l3, l4⟩ := mod_V k2 (VA.self k2) h.N.v hN0 (by omega)
    rw [bind_ok o1, of_bind_ok k1, of_bind_ok l1, of_apply]
    refine ⟨RP, RQ, _, rfl, o2, ?_⟩
    have hL : L.mag = v * c.Vf.mag % c.N.mag := by
      rw [l2.mag, show ((v : Int) * (c.Vf.mag : Int)) % (c.N.mag : Int) = ((v * c.Vf.mag % c.N.mag : Nat) : Int) by push_cast; rfl, Int.natAbs_natCast]
    rw [c54_model_write l2.wf, hL, Option.map_some, Option.bind_some]
    unfold Same
    cases mpiWrite (v * c.Vf.mag % c.N.mag) c.len with
    | none => exact ⟨_, rfl⟩
    | some b => rfl

theorem cmpGe {X Y : Mpi} {x y kx ky : Nat} (hX : V X x kx) (hY : V Y y ky) : cmpMpi X Y ≥ 0 ↔ y ≤ x := by
  rw [cmpMpi_spec hX.wf hY.wf, hX.val, hY.val]
  unfold sgn
  split_ifs <;> omega

/-- The private operation. -/
theorem rsaPrivate_run {g : Rng} (hg : Total g) {c : Ctx} (h : Good c) (hlen : 1 ≤ c.len) (hlen2 : c.len ≤ 1024) {input : Bytes} (hi : input.length = c.len)
    (i : Nat) :
    ∃ o c' j, rsaPrivate g input c i = (o, c', j) ∧ Good c' ∧ c'.len = c.len ∧
      abs c' = (Tdp.rsaPrivate (nums g) (abs c) i input).key ∧ j = (Tdp.rsaPrivate (nums g) (abs c) i input).next ∧
      Same o (Tdp.rsaPrivate (nums g) (abs c) i input).out := by
  by_cases hp : c.P.p = [] ∨ c.Q.p = [] ∨ c.D.p = []
  · have e1 : Tdp.rsaPrivate (nums g) (abs c) i input = ⟨none, abs c, i⟩ := by
      unfold Tdp.rsaPrivate
      have : (abs c).priv = none := by unfold abs; simp only; rw [if_pos hp]
      rw [this]
    rw [e1]
    refine ⟨.err .badInput, c, i, ?_, h, rfl, rfl, rfl, _, rfl⟩
    unfold rsaPrivate
    rw [get_bind, if_pos hp, of_apply]
  obtain ⟨T, t1, t2, _⟩ := read_U U.null.v (b := input) (by unfold maxLimbs; omega)
  have run : rsaPrivate g input c i = (if cmpMpi T c.N ≥ 0 then St.of (.err .badInput)
      else do
        prepareBlinding g
        blindedPrivate g T) c i := by
    unfold rsaPrivate
    rw [get_bind, if_neg hp, of_bind_ok t1]
  have hpr : (abs c).priv = some { D := c.D.mag, P := c.P.mag, Q := c.Q.mag, DP := c.DP.mag, DQ := c.DQ.mag, QP := c.QP.mag } := by
    unfold abs; simp only; rw [if_neg hp]
  have hNv : (abs c).N = c.N.mag := rfl
  by_cases hge : c.N.mag ≤ beNat input
  · have e1 : Tdp.rsaPrivate (nums g) (abs c) i input = ⟨none, abs c, i⟩ := by
      unfold Tdp.rsaPrivate
      rw [hpr]
      simp only
      rw [if_pos (show beNat input ≥ (abs c).N from hge)]
    rw [e1, run, if_pos ((cmpGe t2.v h.N.v).2 hge), of_apply]
    exact ⟨_, c, i, rfl, h, rfl, rfl, rfl, _, rfl⟩
  have hN0 : 0 < c.N.mag := by omega
  rw [run, if_neg (by rw [cmpGe t2.v h.N.v]; exact hge)]
  obtain ⟨Vi, Vf, RN, o, j, b, q1, q2, q3, q4, q5, q6⟩ := prepareBlinding_run hg h hlen hlen2 hN0 i
  have habs : abs { c with Vi := Vi, Vf := Vf, RN := RN } = { abs c with blind := some (Vi.mag, Vf.mag) } := by
    unfold abs
    simp only
    rw [if_neg q3]
  have e1 : Tdp.rsaPrivate (nums g) (abs c) i input = match prepBlind (nums g) (abs c) i with
      | (false, b, i') => ⟨none, { abs c with blind := some b }, i'⟩
      | (true, (vi, vf), i') =>
        match crtPrivate (abs c).N { D := c.D.mag, P := c.P.mag, Q := c.Q.mag, DP := c.DP.mag, DQ := c.DQ.mag, QP := c.QP.mag } vi vf (beNat input)
            (nums g i' 28) (nums g (i' + 1) 28) with
        | none => ⟨none, { abs c with blind := some (vi, vf) }, i' + 2⟩
        | some y => ⟨mpiWrite y (abs c).len, { abs c with blind := some (vi, vf) }, i' + 2⟩ := by
    unfold Tdp.rsaPrivate
    rw [hpr]
    simp only
    rw [if_neg (show ¬ beNat input ≥ (abs c).N from hge), hpr]
    rfl
  rw [e1, q4]
  cases b with
  | false =>
    obtain ⟨e, rfl⟩ := q6 rfl
    rw [bind_err q1]
    exact ⟨_, _, _, rfl, q2, rfl, habs, rfl, e, rfl⟩
  | true =>
    rw [q5 rfl] at q1
    rw [bind_ok q1]
    have hPQ : c.P.p ≠ [] ∧ c.Q.p ≠ [] := ⟨fun h => hp (.inl h), fun h => hp (.inr (.inl h))⟩
    obtain ⟨RP, RQ, o', w1, w2, w3⟩ := blindedPrivate_run hg q2 hN0 hPQ.1 hPQ.2 (t2.mono (l := 129) (by omega)) (s := { D := c.D.mag, P := c.P.mag, Q := c.Q.mag, DP := c.DP.mag, DQ := c.DQ.mag, QP := c.QP.mag }) rfl rfl rfl rfl rfl j
    rw [w1]
    have habs2 : abs { c with Vi := Vi, Vf := Vf, RN := RN, RP := RP, RQ := RQ } = abs { c with Vi := Vi, Vf := Vf, RN := RN } := rfl
    refine ⟨_, _, _, rfl, w2, rfl, ?_⟩
    simp only at w3
    simp only [hNv]
    cases hc : crtPrivate c.N.mag { D := c.D.mag, P := c.P.mag, Q := c.Q.mag, DP := c.DP.mag, DQ := c.DQ.mag, QP := c.QP.mag } Vi.mag Vf.mag (beNat input)
        (nums g j 28) (nums g (j + 1) 28) with
    | none =>
      rw [hc] at w3
      exact ⟨habs2.trans habs, rfl, w3⟩
    | some y =>
      rw [hc] at w3
      exact ⟨habs2.trans habs, rfl, w3⟩

end Verif.Rsa
