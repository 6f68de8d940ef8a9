import Verif.Rsa.Check
import Verif.Rsa.Copy
import Verif.Rsa.ModelTdp
import Verif.Tdp.Lemmas

/-!
# The trapdoor permutation classes on limbs compute what `Verif.Tdp` says
-/

namespace Verif.Rsa

open Verif Verif.Bignum Verif.Tdp

theorem writeIgn_run {X : Mpi} (h : X.WF) : writeIgn X = writeIgnored X.mag := by
  unfold writeIgn writeIgnored
  rw [c54_model_write h]
  cases mpiWrite X.mag msgSize <;> rfl

theorem writeZero_run {X : Mpi} (h : X.WF) : writeZero X = .ok (writeZeroed X.mag) := by
  unfold writeZero writeZeroed
  rw [c54_model_write h]
  cases mpiWrite X.mag msgSize <;> rfl

theorem Good.setRN {c : Ctx} (h : Good c) {RN : Mpi} (h1 : CacheOk c.N (some RN)) : Good { c with RN := RN } :=
  ⟨h.N, h.E, h.D, h.P, h.Q, h.DP, h.DQ, h.QP, h1, h.RP, h.RQ, h.Vi, h.Vf, h.vi, h.vf⟩

/-! ## Evaluation -/

/-- The exponentiation and the end of `eval` and `eval_pool`. -/
theorem evalEnd_run {c : Ctx} (h : Good c) (hN : c.N.p ≠ []) {x : Mpi} {n : Nat} (hx : U x n 400) :
    ∃ RN, (evalEnd c (expMod x .self c.E c.N (some c.RN))).2 = { c with RN := RN } ∧ Good { c with RN := RN } ∧
      (evalEnd c (expMod x .self c.E c.N (some c.RN))).1 = (do
        let y ← orThrow .runtimeError (mpiExpMod n c.E.mag c.N.mag)
        writeIgnored y : Res Bytes) := by
  have he := exp_U (X := x) (A := .self) hx.v (VA.self hx.v) hx.pos (by simp) h.E.v h.N hN (by omega) (by omega) h.RN
  cases hm : mpiExpMod n c.E.mag c.N.mag with
  | none =>
    rw [hm] at he
    simp only at he
    rw [he]
    exact ⟨c.RN, rfl, h, rfl⟩
  | some v =>
    rw [hm] at he
    obtain ⟨R, rr, r1, r2, r3, r4⟩ := he
    rw [r1]
    refine ⟨rr, rfl, h.setRN r4, ?_⟩
    show writeIgn R = writeIgnored v
    rw [writeIgn_run r2.wf, r2.val]

theorem evalArray_run {c : Ctx} (h : Good c) {inp : Bytes} (hi : inp.length = 256) :
    ∃ RN, (evalArray c inp).2 = { c with RN := RN } ∧ Good { c with RN := RN } ∧ (evalArray c inp).1 = Tdp.evalArray (abs c) inp := by
  unfold evalArray Tdp.evalArray
  have e1 : (abs c).len = c.len := rfl
  have e2 : (abs c).N = c.N.mag := rfl
  have e3 : (abs c).E = c.E.mag := rfl
  rw [e1, e2, e3]
  by_cases hl : msgSize ≠ c.len
  · rw [if_pos hl, if_pos hl]
    exact ⟨c.RN, rfl, h, rfl⟩
  rw [if_neg hl, if_neg hl]
  obtain ⟨T, t1, t2, _⟩ := read_U U.null.v (b := inp) (by unfold maxLimbs; omega)
  unfold evalExp
  rw [t1, Out.bind_ok]
  by_cases h0 : c.N.mag = 0
  · have hm : modMpi T .self c.N = .err .divZero :=
      (c63_mod (A := .self) t2.wf trivial h.N.wf (by have := t2.len; unfold maxLimbs; simp only [Arg.get]; omega)).2.1 (by rw [h.N.v.val, h0]; rfl)
    have e4 : mpiMod (beNat inp : Int) c.N.mag = none := by unfold mpiMod; rw [if_pos h0]
    rw [hm, e4]
    exact ⟨c.RN, rfl, h, rfl⟩
  · obtain ⟨R, r1, r2, _, r4⟩ := mod_V t2.v (VA.self t2.v) h.N.v (by omega) (by omega)
    rw [Tdp.mpiMod_nat (by omega), r1, Out.bind_ok]
    have hR : U R (beNat inp % c.N.mag) 400 := by
      refine U.of_nonneg ?_ (r4 t2.pos)
      have := r2.mono (l := 400) (by omega)
      exact_mod_cast this
    exact evalEnd_run h (nonnil_of_mag h0) hR

/-- `mbedtls_mpi_mod_mpi( &x, &x, &N )` and the write into an array of zeros. -/
theorem modZero_run {c : Ctx} (h : Good c) {x : Mpi} {n : Nat} (hx : U x n 400) :
    ((toRes .runtimeError (modMpi x .self c.N)) >>= writeZero : Res Bytes) = (do
      let x ← orThrow .runtimeError (mpiMod (n : Int) c.N.mag)
      pure (writeZeroed x)) := by
  have hm := mod_M hx.v (VA.self hx.v) h.N.v (by omega)
  cases hv : mpiMod (n : Int) c.N.mag with
  | none =>
    rw [hv] at hm
    obtain ⟨e, hm⟩ := hm
    rw [hm]
    rfl
  | some v =>
    rw [hv] at hm
    obtain ⟨R, r1, r2⟩ := hm
    rw [r1]
    show writeZero R = .ok (writeZeroed v)
    rw [writeZero_run r2.wf, r2.mag, Int.natAbs_natCast]

theorem sample_run {g : Rng} (hg : Total g) {c : Ctx} (h : Good c) (i : Nat) : sample g c i = Tdp.sample (nums g) (abs c) i := by
  obtain ⟨x, x1, x2, _⟩ := fill_U hg U.null.v (n := 264) (by decide) i
  unfold sample Tdp.sample
  rw [x1]
  exact modZero_run h (x2.mono (by omega))

theorem generate_run {c : Ctx} (h : Good c) {rnd : Bytes} (hr : rnd.length = 264) :
    generate c rnd = (do
      let x ← orThrow .runtimeError (mpiMod (beNat rnd : Int) (abs c).N)
      pure (writeZeroed x)) := by
  obtain ⟨T, t1, t2, _⟩ := read_U U.null.v (b := rnd) (by unfold maxLimbs; omega)
  unfold generate
  rw [t1]
  exact modZero_run h (t2.mono (by omega))

/-! ## Inversion -/

theorem invertBuf_run {g : Rng} (hg : Total g) {c : Ctx} (h : Good c) (hlen : 1 ≤ c.len) {inp : Bytes} (hi : inp.length = 256) (i : Nat) :
    ∃ c' j, (invertBuf g c i inp).2 = (c', j) ∧ Good c' ∧ c'.len = c.len ∧
      Tdp.invertBuf (nums g) (abs c) i inp = ((invertBuf g c i inp).1, abs c', j) := by
  unfold invertBuf Tdp.invertBuf
  by_cases hp : c.P.p = [] ∨ c.Q.p = [] ∨ c.D.p = []
  · have : (abs c).priv = none := by unfold abs; simp only; rw [if_pos hp]
    rw [if_pos hp, this, if_pos (by simp)]
    exact ⟨c, i, rfl, h, rfl, rfl⟩
  have hpr : (abs c).priv.isNone = false := by unfold abs; simp only; rw [if_neg hp]; rfl
  rw [if_neg hp, if_neg (show ¬ (abs c).priv.isNone = true by rw [hpr]; simp)]
  have e1 : (abs c).len = c.len := rfl
  rw [e1]
  by_cases hl : c.len > inp.length
  · rw [if_pos hl, if_pos hl]
    exact ⟨c, i, rfl, h, rfl, rfl⟩
  rw [if_neg hl, if_neg hl]
  obtain ⟨o, c', j, r1, r2, r3, r4, r5, r6⟩ := rsaPrivate_run hg h hlen (by omega) (input := inp.take c.len) (by rw [List.length_take]; omega) i
  simp only [r1]
  cases ho : (Tdp.rsaPrivate (nums g) (abs c) i (inp.take c.len)).out with
  | none =>
    rw [ho] at r6
    obtain ⟨e, rfl⟩ := r6
    exact ⟨c', j, rfl, r2, r3, by rw [r4, r5]⟩
  | some b =>
    rw [ho] at r6
    have r6 : o = .ok b := r6
    subst r6
    simp only
    by_cases hb : b.length = msgSize
    · rw [if_pos hb, if_pos hb]
      exact ⟨c', j, rfl, r2, r3, by rw [r4, r5]⟩
    · rw [if_neg hb, if_neg hb]
      exact ⟨c', j, rfl, r2, r3, by rw [r4, r5]⟩

theorem mod_none {X B : Mpi} {A : Arg} {x a z : Int} {kx ka kb : Nat} (hX : V X x kx) (hA : VA X A a ka) (hB : V B z kb) (h1 : ka ≤ 9998) (hz : z ≤ 0) :
    ∃ e, modMpi X A B = .err e := by
  rcases mod_E hX hA hB h1 with ⟨_, h, _⟩ | h
  · omega
  · exact h

theorem limbs_mod {x n k : Nat} (hn : 0 < n) (h : limbs n ≤ k) : limbs (x % n) ≤ k := limbs_lt (Nat.mod_lt _ hn) h

/-- `mul_mpi` and `mod_mpi` in place. -/
theorem mulMod_V {X N : Mpi} {B : Arg} {x b n : Nat} (hX : V X x 700) (hB : VA X B b 700) (hx : limbs x ≤ 301) (hb : limbs b ≤ 301) (hN : V N n 301) (hn : 0 < n) :
    ∃ R S, mulMpi X .self B = .ok R ∧ modMpi R .self N = .ok S ∧ V S ((x * b % n : Nat) : Int) 700 ∧ limbs (x * b % n) ≤ 301 := by
  obtain ⟨R, r1, r2, _⟩ := mul_L hX (VA.self hX) hB (sa := 301) (sb := 301) (by rw [Int.natAbs_natCast]; exact hx) (by rw [Int.natAbs_natCast]; exact hb) (by omega)
  obtain ⟨S, s1, s2, _⟩ := mod_V r2 (VA.self r2) hN hn (by omega)
  refine ⟨R, S, r1, s1, ?_, limbs_mod hn ?_⟩
  · have := s2.mono (l := 700) (by omega)
    exact_mod_cast this
  · have := limbs_le_of hN
    rwa [hN.mag, Int.natAbs_natCast] at this

theorem expLoop_run {N : Mpi} {n : Nat} (hN : V N n 301) (hn : 0 < n) (e : Nat) : ∀ {X base : Mpi} {x b : Nat}, V X x 700 → limbs x ≤ 301 → V base b 700 →
    limbs b ≤ 301 → ∃ R v, expLoop N e X base = .ok R ∧ Tdp.expLoop n e x b = some v ∧ V R v 700 := by
  induction e using Nat.strong_induction_on with
  | _ e ih =>
    intro X base x b hX hx hb hb2
    rw [expLoop, Tdp.expLoop]
    by_cases h0 : e = 0
    · rw [dif_pos h0, dif_pos h0]
      exact ⟨X, x, rfl, rfl, hX⟩
    · rw [dif_neg h0, dif_neg h0]
      obtain ⟨B1, B2, b1, b2, b3, b4⟩ := mulMod_V hb (VA.self hb) hb2 hb2 hN hn
      have hmb : mpiMod ((b * b : Nat) : Int) n = some (b * b % n) := Tdp.mpiMod_nat hn _
      by_cases ho : e % 2 = 1
      · obtain ⟨A1, A2, a1, a2, a3, a4⟩ := mulMod_V hX (VA.ext hb) hx hb2 hN hn
        rw [if_pos ho, if_pos ho, a1, Out.bind_ok, a2, Out.bind_ok, b1, Out.bind_ok, b2, Out.bind_ok, hmb, Tdp.mpiMod_nat hn (x * b)]
        simp only [Option.bind_eq_bind, Option.bind_some]
        exact ih (e / 2) (by omega) a3 a4 b3 b4
      · rw [if_neg ho, if_neg ho, Out.bind_ok, b1, Out.bind_ok, b2, Out.bind_ok, hmb]
        simp only [Option.bind_eq_bind, Option.bind_some]
        exact ih (e / 2) (by omega) hX hx b3 b4

theorem insecure_run {A N : Mpi} (hA : Num 300 A) {z : Int} (hN : V N z 301) (e : Nat) :
    match Tdp.insecureModExp A.mag e z.toNat with
    | some v => ∃ R, insecureModExp A e N = .ok R ∧ V R v 700
    | none => ∃ er, insecureModExp A e N = .err er := by
  obtain ⟨R0, l1, l2, l3, l4⟩ := lset_spec Mpi.null_WF (z := 1) (by decide)
  obtain ⟨B, b1, b2, b3, _, _⟩ := copy_num hA
  have e1 : insecureModExp A e N = (do
      let base ← modMpi B .self N
      expLoop N e R0 base) := by
    unfold insecureModExp
    rw [l1, Out.bind_ok, b1, Out.bind_ok]
  rw [e1]
  unfold Tdp.insecureModExp
  by_cases hz : z ≤ 0
  · have e2 : mpiMod (A.mag : Int) z.toNat = none := by unfold mpiMod; rw [if_pos (by omega)]
    rw [e2]
    obtain ⟨er, h⟩ := mod_none b2.v (VA.self b2.v) hN (by omega) hz
    rw [h]
    exact ⟨er, rfl⟩
  · obtain ⟨n, rfl⟩ := Int.eq_ofNat_of_zero_le (show 0 ≤ z by omega)
    have hn : 0 < n := by omega
    have e2 : ((n : Int)).toNat = n := Int.toNat_natCast n
    rw [e2, Tdp.mpiMod_nat hn]
    obtain ⟨C, c1, c2, _⟩ := mod_V b2.v (VA.self b2.v) hN hn (by omega)
    rw [b3] at c2
    have hNl : limbs n ≤ 301 := by
      have := limbs_le_of hN
      rwa [hN.mag, Int.natAbs_natCast] at this
    have hR0 : V R0 ((1 : Nat) : Int) 700 := ⟨l2, by rw [l3]; rfl, by
      have h0 : R0.p.length = max 1 Mpi.null.p.length := l4.1
      have h1 : Mpi.null.p.length = 0 := rfl
      omega⟩
    obtain ⟨R, v, r1, r2, r3⟩ := expLoop_run hN hn e hR0 (by decide) (b := A.mag % n) (base := C) (by
      have := c2.mono (l := 700) (by omega)
      exact_mod_cast this) (limbs_mod hn hNl)
    rw [c1, Out.bind_ok]
    simp only [Option.bind_eq_bind, Option.bind_some]
    rw [r2]
    exact ⟨R, r1, r3⟩

/-- The objects of class `TdpInverseImpl_mbedTLS`. -/
structure GoodInv (v : Inv) : Prop where
  ctx : Good v.ctx
  p1 : V v.p1 ((v.ctx.P.mag : Int) - 1) 301
  q1 : V v.q1 ((v.ctx.Q.mag : Int) - 1) 301
  priv : ¬ (v.ctx.P.p = [] ∨ v.ctx.Q.p = [] ∨ v.ctx.D.p = [])

theorem crtMult_eq (s : Priv) (x order : Nat) : crtMult s x order =
    (Tdp.insecureModExp s.DP order (s.P - 1)).bind fun dp => (Tdp.insecureModExp s.DQ order (s.Q - 1)).bind fun dq => crtVal s x dp dq := rfl

theorem invertMult_run {v : Inv} (h : GoodInv v) {inp : Bytes} (hi : inp.length = 256) (order : Nat) :
    ∃ RP RQ, (invertMult v inp order).2 = { v with ctx := { v.ctx with RP := RP, RQ := RQ } } ∧ GoodInv { v with ctx := { v.ctx with RP := RP, RQ := RQ } } ∧
      (invertMult v inp order).1 = Tdp.invertMult (abs v.ctx) inp order := by
  unfold invertMult Tdp.invertMult
  by_cases h0 : order = 0
  · rw [if_pos h0, if_pos h0]
    exact ⟨v.ctx.RP, v.ctx.RQ, rfl, h, rfl⟩
  rw [if_neg h0, if_neg h0]
  have e1 : (abs v.ctx).len = v.ctx.len := rfl
  rw [e1]
  by_cases hl : msgSize ≠ v.ctx.len
  · rw [if_pos hl, if_pos hl]
    exact ⟨v.ctx.RP, v.ctx.RQ, rfl, h, rfl⟩
  rw [if_neg hl, if_neg hl]
  have hpr : (abs v.ctx).priv = some { D := v.ctx.D.mag, P := v.ctx.P.mag, Q := v.ctx.Q.mag, DP := v.ctx.DP.mag, DQ := v.ctx.DQ.mag, QP := v.ctx.QP.mag } := by
    unfold abs; simp only; rw [if_neg h.priv]
  rw [hpr]
  simp only
  rw [crtMult_eq]
  simp only
  obtain ⟨T, t1, t2, t3⟩ := read_U U.null.v (b := inp) (by unfold maxLimbs; omega)
  unfold multRun
  rw [of_bind_ok t1]
  unfold multExps
  have ha := insecure_run h.ctx.DP h.p1 order
  have hb := insecure_run h.ctx.DQ h.q1 order
  have e2 : ((v.ctx.P.mag : Int) - 1).toNat = v.ctx.P.mag - 1 := by omega
  have e3 : ((v.ctx.Q.mag : Int) - 1).toNat = v.ctx.Q.mag - 1 := by omega
  rw [e2] at ha
  rw [e3] at hb
  cases hda : Tdp.insecureModExp v.ctx.DP.mag order (v.ctx.P.mag - 1) with
  | none =>
    rw [hda] at ha
    obtain ⟨e, ha⟩ := ha
    rw [ha, Out.bind_err, of_bind_err rfl]
    exact ⟨v.ctx.RP, v.ctx.RQ, rfl, h, rfl⟩
  | some dp =>
  rw [hda] at ha
  obtain ⟨X, ha, hX⟩ := ha
  cases hdb : Tdp.insecureModExp v.ctx.DQ.mag order (v.ctx.Q.mag - 1) with
  | none =>
    rw [hdb] at hb
    obtain ⟨e, hb⟩ := hb
    rw [ha, Out.bind_ok, hb, Out.bind_err, of_bind_err rfl]
    exact ⟨v.ctx.RP, v.ctx.RQ, rfl, h, rfl⟩
  | some dq =>
  rw [hdb] at hb
  obtain ⟨Y, hb, hY⟩ := hb
  rw [ha, Out.bind_ok, hb, Out.bind_ok, of_bind_ok (show (pure (X, Y) : Out (Mpi × Mpi)) = .ok (X, Y) from rfl)]
  simp only [Option.bind_some]
  obtain ⟨RP, RQ, o, o1, o2, o3⟩ := crt_run h.ctx (fun hh => h.priv (.inl hh)) (fun hh => h.priv (.inr (.inl hh))) (t2.mono (l := 430) (by omega)) t3
    (U.null.v.mono (l := 430) (by omega)) (hX.mono (by omega)) (hY.mono (by omega)) (fun _ => rfl) (fun _ => rfl)
    (s := { D := v.ctx.D.mag, P := v.ctx.P.mag, Q := v.ctx.Q.mag, DP := v.ctx.DP.mag, DQ := v.ctx.DQ.mag, QP := v.ctx.QP.mag }) rfl rfl rfl 0
  have hgi : GoodInv { v with ctx := { v.ctx with RP := RP, RQ := RQ } } := ⟨o2, h.p1, h.q1, h.priv⟩
  refine ⟨RP, RQ, ?_, hgi, ?_⟩
  · cases o with
    | ok a => rw [bind_ok o1]; rfl
    | err a => rw [bind_err o1]
    | ub =>
      exfalso
      revert o3
      cases crtVal { D := v.ctx.D.mag, P := v.ctx.P.mag, Q := v.ctx.Q.mag, DP := v.ctx.DP.mag, DQ := v.ctx.DQ.mag, QP := v.ctx.QP.mag } (beNat inp) dp dq with
      | none => rintro ⟨e, he⟩; cases he
      | some w => rintro ⟨R, hR, _⟩; cases hR
  · cases hc : crtVal { D := v.ctx.D.mag, P := v.ctx.P.mag, Q := v.ctx.Q.mag, DP := v.ctx.DP.mag, DQ := v.ctx.DQ.mag, QP := v.ctx.QP.mag } (beNat inp) dp dq with
    | none =>
      rw [hc] at o3
      obtain ⟨e, rfl⟩ := o3
      rw [bind_err o1]
      rfl
    | some w =>
      rw [hc] at o3
      obtain ⟨R, rfl, hR⟩ := o3
      rw [bind_ok o1, of_apply, c54_model_write hR.wf, hR.mag, Int.natAbs_natCast]
      show toRes _ _ = orThrow _ (mpiWrite w msgSize)
      cases mpiWrite w msgSize <;> rfl

/-- The constructors of `TdpInverseImpl_mbedTLS`. -/
theorem mkInv_run {c : Ctx} (h : Good c) (hp : ¬ (c.P.p = [] ∨ c.Q.p = [] ∨ c.D.p = [])) :
    if Tdp.checkPub (abs c) = true then ∃ v, mkInv c = .ok v ∧ v.ctx = c ∧ GoodInv v else mkInv c = .exc .runtimeError := by
  have hc := checkPub_run h.N h.E
  obtain ⟨P1, p1, p2⟩ := sub1_V U.null.v (VA.ext h.P.v) (by omega)
  obtain ⟨Q1, q1, q2⟩ := sub1_V U.null.v (VA.ext h.Q.v) (by omega)
  obtain ⟨H, h1, _⟩ := mul_V U.null.v (VA.ext p2) (VA.ext q2) (by omega)
  unfold mkInv
  rw [hc]
  split
  · refine ⟨⟨c, P1, Q1⟩, ?_, rfl, ⟨h, p2.mono (by omega), q2.mono (by omega), hp⟩⟩
    rw [p1, q1]
    simp only [toRes, Res.bind_ok]
    rw [h1]
    rfl
  · rfl

end Verif.Rsa
