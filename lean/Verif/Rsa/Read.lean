import Verif.Rsa.Pool

/-!
# Keys read from strings, on limbs
-/

namespace Verif.Rsa

open Verif Verif.Bignum Verif.Tdp

/-- The elements are not too long. -/
structure PrivElems.Fits (a : PrivElems) : Prop where
  n : a.n.length ≤ 2400
  e : a.e.length ≤ 2400
  d : a.d.length ≤ 40000
  p : a.p.length ≤ 2400
  q : a.q.length ≤ 2400
  dp : a.dp.length ≤ 2400
  dq : a.dq.length ≤ 2400
  qp : a.qp.length ≤ 2400

/-- The key that the elements say. -/
def PrivElems.key (a : PrivElems) : Tdp.Rsa :=
  { len := mpiSize (beNat a.n), N := beNat a.n, E := beNat a.e,
    priv := some { D := beNat a.d, P := beNat a.p, Q := beNat a.q, DP := beNat a.dp, DQ := beNat a.dq, QP := beNat a.qp }, blind := none }

theorem cacheOk_null {N : Mpi} : CacheOk N (some .null) := by
  intro m hm hp
  cases hm
  exact absurd rfl hp

theorem num_null (k : Nat) : Num k .null := ⟨U.null.wf, rfl, rfl, Nat.zero_le _⟩

theorem Tight.null : Tight .null := fun h => absurd rfl h

theorem readPriv_run {a : PrivElems} (h : a.Fits) :
    ∃ c, readPriv a = .ok c ∧ Good c ∧ Trim c ∧ abs c = a.key ∧ ¬ (c.P.p = [] ∨ c.Q.p = [] ∨ c.D.p = []) := by
  obtain ⟨N, n1, n2, n3, n4, _⟩ := tight_read (b := a.n) (k := 300) (by omega) (by omega) h.n
  obtain ⟨E, e1, e2, _, e4, _⟩ := tight_read (b := a.e) (k := 300) (by omega) (by omega) h.e
  obtain ⟨D, d1, d2, _, d4, d5⟩ := tight_read (b := a.d) (k := 5000) (by omega) (by omega) h.d
  obtain ⟨P, p1, p2, p3, p4, p5⟩ := tight_read (b := a.p) (k := 300) (by omega) (by omega) h.p
  obtain ⟨Q, q1, q2, q3, q4, q5⟩ := tight_read (b := a.q) (k := 300) (by omega) (by omega) h.q
  obtain ⟨A, a1, a2, _, a4, _⟩ := tight_read (b := a.dp) (k := 300) (by omega) (by omega) h.dp
  obtain ⟨B, b1, b2, _, b4, _⟩ := tight_read (b := a.dq) (k := 300) (by omega) (by omega) h.dq
  obtain ⟨F, f1, f2, _, f4, _⟩ := tight_read (b := a.qp) (k := 300) (by omega) (by omega) h.qp
  have hnn : ¬ (P.p = [] ∨ Q.p = [] ∨ D.p = []) := by
    rintro (h | h | h)
    · exact p5 h
    · exact q5 h
    · exact d5 h
  refine ⟨⟨size N, N, E, D, P, Q, A, B, F, .null, .null, .null, .null, .null⟩, ?_,
    ⟨n2, ⟨e2.wf, e2.pos, rfl, le_trans e2.len (by decide)⟩, d2, p2, q2, a2, b2, f2, cacheOk_null, cacheOk_null, cacheOk_null, num_null _, num_null _,
      show limbs Mpi.null.mag ≤ 301 by decide, show limbs Mpi.null.mag ≤ 301 by decide⟩, ⟨n3, p3, q3⟩, ?_, hnn⟩
  · unfold readPriv
    simp only [n1, e1, d1, p1, q1, a1, b1, f1, Out.bind_ok, Out.pure_eq]
  · unfold abs PrivElems.key
    simp only
    rw [if_neg hnn, if_pos (show Mpi.null.p = [] from rfl), size_spec n2.wf, n4, e4, d4, p4, q4, a4, b4, f4]

theorem readPub_run {n e : Bytes} (hn : n.length ≤ 2400) (he : e.length ≤ 2400) :
    (Tdp.checkPub { len := mpiSize (beNat n), N := beNat n, E := beNat e, priv := none, blind := none } = true ∧ ∃ c, readPub n e = .ok c ∧ Good c ∧ Trim c ∧
      abs c = { len := mpiSize (beNat n), N := beNat n, E := beNat e, priv := none, blind := none }) ∨
    (Tdp.checkPub { len := mpiSize (beNat n), N := beNat n, E := beNat e, priv := none, blind := none } = false ∧ readPub n e = .err .rsa) := by
  obtain ⟨N, n1, n2, n3, n4, _⟩ := tight_read (b := n) (k := 300) (by omega) (by omega) hn
  obtain ⟨E, e1, e2, _, e4, _⟩ := tight_read (b := e) (k := 300) (by omega) (by omega) he
  have hc := checkPub_run (c := ⟨0, N, E, .null, .null, .null, .null, .null, .null, .null, .null, .null, .null, .null⟩) n2 e2
  have habs : abs ⟨0, N, E, .null, .null, .null, .null, .null, .null, .null, .null, .null, .null, .null⟩ =
      { len := 0, N := beNat n, E := beNat e, priv := none, blind := none } := by
    unfold abs
    simp only
    rw [if_pos (.inl (show Mpi.null.p = [] from rfl)), if_pos (show Mpi.null.p = [] from rfl), n4, e4]
  rw [habs] at hc
  have hlen : Tdp.checkPub { len := mpiSize (beNat n), N := beNat n, E := beNat e, priv := none, blind := none } =
      Tdp.checkPub { len := 0, N := beNat n, E := beNat e, priv := none, blind := none } := rfl
  rw [hlen]
  have hr : readPub n e = (do
      checkPub ⟨0, N, E, .null, .null, .null, .null, .null, .null, .null, .null, .null, .null, .null⟩
      pure ⟨size N, N, E, .null, .null, .null, .null, .null, .null, .null, .null, .null, .null, .null⟩) := by
    unfold readPub
    rw [n1, Out.bind_ok, e1, Out.bind_ok]
    rfl
  rw [hr, hc]
  by_cases hp : Tdp.checkPub { len := 0, N := beNat n, E := beNat e, priv := none, blind := none } = true
  · left
    rw [if_pos hp]
    refine ⟨hp, _, rfl, ⟨n2, ⟨e2.wf, e2.pos, rfl, le_trans e2.len (by decide)⟩, num_null _, num_null _, num_null _, num_null _, num_null _, num_null _,
      cacheOk_null, cacheOk_null, cacheOk_null, num_null _, num_null _, show limbs Mpi.null.mag ≤ 301 by decide, show limbs Mpi.null.mag ≤ 301 by decide⟩,
      ⟨n3, Tight.null, Tight.null⟩, ?_⟩
    unfold abs
    simp only
    rw [if_pos (.inl (show Mpi.null.p = [] from rfl)), if_pos (show Mpi.null.p = [] from rfl), size_spec n2.wf, n4, e4]
  · right
    rw [if_neg hp]
    exact ⟨by simpa using hp, rfl⟩

theorem importPub_run {n e : Bytes} (hn : n.length ≤ 2400) (he : e.length ≤ 2400) :
    (Tdp.checkPub { len := mpiSize (beNat n), N := beNat n, E := beNat e, priv := none, blind := none } = true ∧ ∃ c, importPub n e = .ok c ∧ PoolKey c ∧
      abs c = { len := mpiSize (beNat n), N := beNat n, E := beNat e, priv := none, blind := none }) ∨
    (Tdp.checkPub { len := mpiSize (beNat n), N := beNat n, E := beNat e, priv := none, blind := none } = false ∧ importPub n e = .exc .runtimeError) := by
  unfold importPub
  rcases readPub_run hn he with ⟨h1, c, c1, c2, c3, c4⟩ | ⟨h1, c1⟩
  · left
    obtain ⟨d, d1, d2, d3, d4, _⟩ := freshCopy_run c2 c3
    have hc := checkPub_run d2.N d2.E
    rw [d4, c4, if_pos h1] at hc
    refine ⟨h1, d, ?_, ⟨d2, d3, by rw [d4, c4]; exact h1⟩, d4.trans c4⟩
    rw [c1]
    simp only [toRes, Res.bind_ok]
    rw [d1]
    simp only [Res.bind_ok]
    rw [hc]
    rfl
  · right
    rw [c1]
    exact ⟨h1, rfl⟩

theorem checkPriv_pub {k : Tdp.Rsa} (h : Tdp.checkPriv k = true) : Tdp.checkPub k = true := by
  by_contra hc
  unfold Tdp.checkPriv at h
  rw [if_pos (by simpa using hc)] at h
  simp at h

theorem importPriv_run {a : PrivElems} (h : a.Fits) :
    (Tdp.checkPriv a.key = true ∧ ∃ v, importPriv a = .ok v ∧ GoodInv v ∧ abs v.ctx = a.key) ∨
    (Tdp.checkPriv a.key = false ∧ importPriv a = .exc .runtimeError) := by
  obtain ⟨c, c1, c2, c3, c4, c5⟩ := readPriv_run h
  have hk := checkPriv_run c2
  rw [c4] at hk
  unfold importPriv
  rw [c1]
  simp only [toRes, Res.bind_ok]
  by_cases hp : Tdp.checkPriv a.key = true
  · left
    rw [if_pos hp] at hk
    have hk : checkPriv c = .ok () := hk
    obtain ⟨d, d1, d2, d3, d4, _⟩ := freshCopy_run c2 c3
    rw [hk]
    simp only [Res.bind_ok]
    rw [d1]
    simp only [Res.bind_ok]
    have hnn : ¬ (d.P.p = [] ∨ d.Q.p = [] ∨ d.D.p = []) := by
      intro hh
      have := congrArg Tdp.Rsa.priv (d4.trans c4)
      unfold abs PrivElems.key at this
      simp only at this
      rw [if_pos hh] at this
      cases this
    have hm := mkInv_run d2 hnn
    rw [d4, c4, if_pos (checkPriv_pub hp)] at hm
    obtain ⟨v, v1, v2, v3⟩ := hm
    exact ⟨hp, v, v1, v3, by rw [v2, d4, c4]⟩
  · right
    rw [if_neg hp] at hk
    obtain ⟨e, hk⟩ := hk
    rw [hk]
    exact ⟨by simpa using hp, rfl⟩

end Verif.Rsa
