import Verif.Rsa.Private
import Verif.Rsa.ModelTdp

/-!
# Copies of contexts
-/

namespace Verif.Rsa

open Verif Verif.Bignum Verif.Tdp

/-- No limb more than needed, as `mbedtls_mpi_read_binary` makes them; the cached constants of a modulus can be copied only then. -/
def Tight (X : Mpi) : Prop := X.p ≠ [] → X.p.length = max 1 (limbs X.mag)

theorem copy_fresh {Y : Mpi} (hY : Y.WF) :
    ∃ R, copy .null Y = .ok R ∧ R.WF ∧ R.mag = Y.mag ∧ R.neg = (if Y.p = [] then false else Y.neg) ∧ (R.p = [] ↔ Y.p = []) ∧
      (Y.p ≠ [] → R.p.length = max 1 (limbs Y.mag)) ∧ R.p.length ≤ Y.p.length := by
  obtain ⟨R, r1, r2, r3, _, _⟩ := copy_spec Mpi.null_WF hY
  refine ⟨R, r1, r2, r3, ?_⟩
  by_cases h : Y.p = []
  · unfold copy at r1
    rw [if_pos h, Out.ok.injEq] at r1
    subst r1
    rw [if_pos h]
    exact ⟨rfl, by rw [h]; simp [Mpi.null], fun h' => absurd h h', Nat.zero_le _⟩
  · have hs := sig_le Y.p
    have hl : 0 < Y.p.length := List.length_pos_of_ne_nil h
    have hm : max (sig Y.p) 1 ≤ maxLimbs := by
      have := hY.len
      unfold maxLimbs at *
      omega
    unfold copy at r1
    rw [if_neg h] at r1
    obtain ⟨Z, z1, z2⟩ := Out.bind_eq_ok.1 r1
    unfold grow at z1
    rw [if_neg (by omega)] at z1
    have hz : Z = ⟨Y.neg, List.replicate (max (sig Y.p) 1) 0⟩ := by
      rw [Out.ok.injEq] at z1
      rw [← z1]
      simp [Mpi.null]
    subst hz
    rw [Out.pure_eq, Out.ok.injEq] at z2
    subst z2
    rw [if_neg h]
    have hlen : (Y.p.take (max (sig Y.p) 1) ++ List.replicate ((List.replicate (max (sig Y.p) 1) 0).length - max (sig Y.p) 1) 0).length = max (sig Y.p) 1 := by
      rw [List.length_append, List.length_take, List.length_replicate, List.length_replicate]
      omega
    have hsl : sig Y.p = limbs Y.mag := sig_eq_limbs hY.ok
    refine ⟨rfl, ⟨fun h0 => ?_, fun h0 => absurd h0 h⟩, fun _ => ?_, ?_⟩
    · exfalso
      have h1 := congrArg List.length h0
      rw [hlen, List.length_nil] at h1
      omega
    · show (Y.p.take _ ++ _).length = _
      rw [hlen, ← hsl, max_comm]
    · show (Y.p.take _ ++ _).length ≤ _
      rw [hlen]
      omega

theorem copy_num {Y : Mpi} {k : Nat} (hY : Num k Y) :
    ∃ R, copy .null Y = .ok R ∧ Num k R ∧ R.mag = Y.mag ∧ (R.p = [] ↔ Y.p = []) ∧ (Y.p ≠ [] → R.p.length = max 1 (limbs Y.mag)) := by
  obtain ⟨R, r1, r2, r3, r4, r5, r6, r7⟩ := copy_fresh hY.wf
  refine ⟨R, r1, ⟨r2, ?_, rfl, le_trans r7 hY.len⟩, r3, r5, r6⟩
  rw [r4]
  split
  · rfl
  · exact hY.pos

theorem copy_cache {N N' rr : Mpi} (hc : CacheOk N (some rr)) (hN : Tight N) (h1 : N'.mag = N.mag) (h2 : N'.p = [] ↔ N.p = [])
    (h3 : N.p ≠ [] → N'.p.length = max 1 (limbs N.mag)) : ∃ R, copy .null rr = .ok R ∧ CacheOk N' (some R) := by
  by_cases h0 : rr.p = []
  · refine ⟨Mpi.null, by unfold copy; rw [if_pos h0], ?_⟩
    intro m hm hp
    cases hm
    exact absurd rfl hp
  · obtain ⟨c1, c2, c3⟩ := hc rr rfl h0
    obtain ⟨R, r1, r2, r3, r4, r5, r6, r7⟩ := copy_fresh c1
    refine ⟨R, r1, ?_⟩
    intro m hm hp
    cases hm
    refine ⟨r2, by rw [r4, if_neg h0, c2], ?_⟩
    rw [r3, c3, h1]
    by_cases hn : N.p = []
    · rw [hn, h2.2 hn]
    · rw [h3 hn, ← hN hn]

/-- The moduli of a context have no limb more than needed. -/
structure Trim (c : Ctx) : Prop where
  N : Tight c.N
  P : Tight c.P
  Q : Tight c.Q

theorem tight_copy {Y R : Mpi} (h1 : R.mag = Y.mag) (h2 : R.p = [] ↔ Y.p = []) (h3 : Y.p ≠ [] → R.p.length = max 1 (limbs Y.mag)) : Tight R := by
  intro h
  rw [h3 (fun h0 => h (h2.2 h0)), h1]

theorem rsaCopy_run {c : Ctx} (h : Good c) (ht : Trim c) : ∃ d, rsaCopy .init c = .ok d ∧ Good d ∧ Trim d ∧ abs d = abs c ∧
    d.E.p.length ≤ max 1 (limbs c.E.mag) := by
  obtain ⟨N, n1, n2, n3, n4, n5⟩ := copy_num h.N
  obtain ⟨E, e1, e2, e3, e4, e5⟩ := copy_num h.E
  obtain ⟨D, d1, d2, d3, d4, _⟩ := copy_num h.D
  obtain ⟨P, p1, p2, p3, p4, p5⟩ := copy_num h.P
  obtain ⟨Q, q1, q2, q3, q4, q5⟩ := copy_num h.Q
  obtain ⟨DP, a1, a2, a3, _, _⟩ := copy_num h.DP
  obtain ⟨DQ, b1, b2, b3, _, _⟩ := copy_num h.DQ
  obtain ⟨QP, f1, f2, f3, _, _⟩ := copy_num h.QP
  obtain ⟨RN, g1, g2⟩ := copy_cache h.RN ht.N n3 n4 n5
  obtain ⟨RP, k1, k2⟩ := copy_cache h.RP ht.P p3 p4 p5
  obtain ⟨RQ, l1, l2⟩ := copy_cache h.RQ ht.Q q3 q4 q5
  obtain ⟨Vi, i1, i2, i3, _, _⟩ := copy_num h.Vi
  obtain ⟨Vf, j1, j2, j3, j4, _⟩ := copy_num h.Vf
  refine ⟨⟨c.len, N, E, D, P, Q, DP, DQ, QP, RN, RP, RQ, Vi, Vf⟩, ?_, ⟨n2, e2, d2, p2, q2, a2, b2, f2, g2, k2, l2, i2, j2, ?_, ?_⟩,
    ⟨tight_copy n3 n4 n5, tight_copy p3 p4 p5, tight_copy q3 q4 q5⟩, ?_, ?_⟩
  · unfold rsaCopy
    have e0 : Ctx.init.N = .null ∧ Ctx.init.E = .null ∧ Ctx.init.D = .null ∧ Ctx.init.P = .null ∧ Ctx.init.Q = .null ∧ Ctx.init.DP = .null ∧
      Ctx.init.DQ = .null ∧ Ctx.init.QP = .null ∧ Ctx.init.RN = .null ∧ Ctx.init.RP = .null ∧ Ctx.init.RQ = .null ∧ Ctx.init.Vi = .null ∧
      Ctx.init.Vf = .null := ⟨rfl, rfl, rfl, rfl, rfl, rfl, rfl, rfl, rfl, rfl, rfl, rfl, rfl⟩
    obtain ⟨z1, z2, z3, z4, z5, z6, z7, z8, z9, z10, z11, z12, z13⟩ := e0
    simp only [z1, z2, z3, z4, z5, z6, z7, z8, z9, z10, z11, z12, z13, n1, e1, d1, p1, q1, a1, b1, f1, g1, k1, l1, i1, j1, Out.bind_ok, Out.pure_eq]
  · show limbs Vi.mag ≤ 301
    rw [i3]; exact h.vi
  · show limbs Vf.mag ≤ 301
    rw [j3]; exact h.vf
  · unfold abs
    simp only [n3, e3, d3, p3, q3, a3, b3, f3, i3, j3, p4, q4, d4, j4]
  · show E.p.length ≤ _
    by_cases h0 : c.E.p = []
    · rw [e4.2 h0]
      exact Nat.zero_le _
    · exact le_of_eq (e5 h0)

/-- Integers read from bytes have no limb more than needed. -/
theorem tight_read {b : Bytes} {k : Nat} (hk1 : 1 ≤ k) (hk : k ≤ 10000) (hb : b.length ≤ 8 * k) :
    ∃ X, readBinary .null b = .ok X ∧ Num k X ∧ Tight X ∧ X.mag = beNat b ∧ X.p ≠ [] := by
  have hd : (b.dropWhile (· == 0)).length ≤ b.length := (List.dropWhile_suffix _).length_le
  obtain ⟨R, r1, r2, r3, r4, r5⟩ := (readBinary_spec Mpi.null_WF b).1 (by unfold maxLimbs; omega)
  have h1 : charsToLimbs (b.dropWhile (· == 0)).length ≤ k := by unfold charsToLimbs; split <;> omega
  have h0 : Mpi.null.p.length = 0 := rfl
  refine ⟨R, r1, ⟨r2, r4, rfl, by omega⟩, fun _ => ?_, r3, fun h => by rw [h, List.length_nil] at r5; omega⟩
  rw [r5, h0, Nat.max_zero]
  congr 1
  rw [r3]
  have hw : ∀ k, (W64 : Nat) ^ k = 256 ^ (k * 8) := fun k => by rw [mul_comm, pow_mul]; exact congrArg (· ^ k) (show W64 = 256 ^ 8 by norm_num)
  have key : ∀ k, charsToLimbs (b.dropWhile (· == 0)).length ≤ k ↔ limbs (beNat b) ≤ k := fun k => by
    rw [charsToLimbs_le, limbs_le_iff, hw, ← beNat_dropWhile]
    constructor
    · intro hk
      exact lt_of_lt_of_le (beNat_lt _) (Nat.pow_le_pow_right (by decide) hk)
    · intro hk
      by_contra hc
      cases hd' : b.dropWhile (· == 0) with
      | nil => rw [hd', List.length_nil] at hc; omega
      | cons x t =>
        have hx : (x == 0) = false := by
          have := List.head_dropWhile_not (p := (· == 0)) (l := b) (by rw [hd']; simp)
          simpa [hd'] using this
        have hx1 : 1 ≤ x.toNat := by
          rcases Nat.eq_zero_or_pos x.toNat with h | h
          · exact absurd (UInt8.toNat_inj.1 (h.trans rfl : x.toNat = (0 : UInt8).toNat)) (by simpa using hx)
          · exact h
        rw [hd', beNat_cons] at hk
        rw [hd', List.length_cons] at hc
        have h2 : 256 ^ (k * 8) ≤ 256 ^ t.length := Nat.pow_le_pow_right (by decide) (by omega)
        have h3 : 1 * 256 ^ t.length ≤ x.toNat * 256 ^ t.length := Nat.mul_le_mul_right _ hx1
        omega
  exact le_antisymm ((key _).2 (le_refl _)) ((key _).1 (le_refl _))

end Verif.Rsa
