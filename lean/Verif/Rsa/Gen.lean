import Verif.Rsa.ModelGen
import Verif.Rsa.Pool
import Verif.Bignum.PropsGen

/-!
# Key generation on limbs
-/

namespace Verif.Rsa

open Verif Verif.Bignum Verif.Tdp

/-! ## Primes -/

/-- An odd number that the primality test has accepted. -/
structure Accepted (g : Rng) (b n : Nat) : Prop where
  low : 2 ^ (b - 1) ≤ n
  odd : n % 2 = 1
  test : ∃ X k j, X.WF ∧ X.neg = false ∧ X.mag = n ∧ isPrime g X k = (.ok (), j)

theorem limbs_two_pow {n b k : Nat} (h : n < 2 ^ b) (hb : b ≤ 64 * k) : limbs n ≤ k := by
  rw [limbs_le_iff]
  have e1 : W64 ^ k = 2 ^ (64 * k) := by
    rw [pow_mul]
    exact congrArg (· ^ k) (show W64 = (2 : Nat) ^ 64 by norm_num)
  rw [e1]
  exact lt_of_lt_of_le h (Nat.pow_le_pow_right (by decide) hb)

theorem accepted_run {g : Rng} (hg : g.Ok) {X : Mpi} (hX : X.WF) (hl : X.p.length ≤ 128) (i : Nat) :
    ∃ j, (isPrime g X i = (.ok (), j) ∧ accepted (isPrime g X) i = (.ok (some ()), j)) ∨ accepted (isPrime g X) i = (.ok none, j) ∨
      ∃ e t n, accepted (isPrime g X) i = (.err e, j) ∧ g t n = .err e := by
  obtain ⟨j, h1 | h1 | ⟨h1, h0⟩ | ⟨e, h1, t, -, -, h2⟩⟩ := c64_outcomes hg hX i
  · exact ⟨j, .inl ⟨h1, accepted_ok h1⟩⟩
  · exact ⟨j, .inr (.inl (accepted_not h1))⟩
  · omega
  · refine ⟨j, .inr ?_⟩
    rcases accepted_cases (isPrime g X) i with ⟨a, k, p1, p2⟩ | ⟨k, p1, p2⟩ | ⟨e', k, p1, -, p2⟩ | ⟨k, p1, p2⟩
    · rw [h1] at p1; cases p1
    · rw [h1] at p1
      cases p1
      exact .inl p2
    · rw [h1] at p1
      cases p1
      exact .inr ⟨e, t, _, p2, h2⟩
    · rw [h1] at p1; cases p1

theorem genLoop_run {g : Rng} (hg : g.Ok) : ∀ (f : Nat) {X : Mpi} {i : Nat}, X.WF → X.neg = false → X.mag + 2 * f < 2 ^ 8000 → X.p.length ≤ 128 →
    ∃ o j, Bignum.genLoop g f X i = (o, j) ∧
      ((∃ R k t, o = .ok (.done R) ∧ U R R.mag 128 ∧ R.mag = X.mag + 2 * t ∧ isPrime g R k = (.ok (), j)) ∨ o = .ok .running ∨ ∃ e t n, o = .err e ∧ g t n = .err e) := by
  intro f
  induction f with
  | zero => intro X i _ _ _ _; exact ⟨_, _, rfl, .inr (.inl rfl)⟩
  | succ f ih =>
    intro X i hX hn hm hl
    rw [Bignum.genLoop, Run.bind_apply]
    obtain ⟨j, ⟨h1, h2⟩ | h2 | ⟨e, t, n, h2, h3⟩⟩ := accepted_run hg hX hl i
    · rw [h2]
      exact ⟨_, _, rfl, .inl ⟨X, i, 0, rfl, ⟨hX, hn, rfl, hl⟩, by omega, h1⟩⟩
    · rw [h2]
      simp only [Run.next_ok]
      rw [Run.bind_apply, Run.of_apply]
      have hm1 : X.mag < 2 ^ 8000 := lt_of_le_of_lt (Nat.le_add_right _ _) hm
      have hlx : limbs X.mag ≤ 125 := limbs_two_pow hm1 (by norm_num)
      rcases addSmall_spec hX hn (c := 2) (by decide) (by decide) with ⟨Y, y1, y2, y3, y4, y5, y6⟩ | ⟨y1, y2⟩
      · change addInt X .self 2 = _ at y1
        rw [y1, Run.next_ok]
        obtain ⟨o, j', o1, o2⟩ := ih (i := j) y2 y3 (by rw [y4]; exact lt_of_le_of_lt (by omega) hm) (by omega)
        refine ⟨o, j', o1, ?_⟩
        rcases o2 with ⟨R, k, t, r1, r2, r3, r4⟩ | r | r
        · exact .inl ⟨R, k, t + 1, r1, r2, by rw [r3, y4]; omega, r4⟩
        · exact .inr (.inl r)
        · exact .inr (.inr r)
      · exfalso
        have h3 : X.mag + 2 < 2 ^ 8000 := lt_of_le_of_lt (by omega) hm
        have h4 : limbs (X.mag + 2) ≤ 125 := limbs_two_pow h3 (by norm_num)
        rw [limbs_le_iff] at h4
        have h5 : W64 ^ 125 ≤ W64 ^ maxLimbs := Nat.pow_le_pow_right (by decide) (by unfold maxLimbs; omega)
        exact absurd (lt_of_lt_of_le h4 h5) (not_lt.2 y2)
    · rw [h2]
      exact ⟨_, _, rfl, .inr (.inr ⟨e, t, n, rfl, h3⟩)⟩

theorem primeFor_run {g : Rng} (hg : g.Ok) {f b : Nat} (hb : 3 ≤ b) (hb2 : b ≤ 4096) (hf : f ≤ 2 ^ (b + 4)) {X : Mpi} (hX : X.WF) (hl : X.p.length ≤ 128) (i : Nat) :
    ∃ o j, primeFor g f X b i = (o, j) ∧
      ((∃ R, o = .ok (some R) ∧ U R R.mag 128 ∧ Accepted g b R.mag) ∨ o = .ok none ∨ ∃ e t n, o = .err e ∧ g t n = .err e) := by
  unfold primeFor
  rw [Run.bind_apply]
  rcases genPrime_start hg f hX hb (by omega) false i with ⟨v, A, v1, a1, a2, a3, a4, a5, a6⟩ | ⟨e, e1, e2⟩
  · rw [a1, if_neg (by simp)]
    obtain ⟨c1, c2, c3⟩ := firstCand_spec (nbits := b) (by omega) (beNat v)
    have hbl : bitsToLimbs b ≤ 128 := by unfold bitsToLimbs; split <;> omega
    have hlt : A.mag + 2 * f < 2 ^ 8000 := by
      rw [a4]
      have h1 : (2 : Nat) ^ (b + 4) = 16 * 2 ^ b := by rw [pow_add]; ring
      have h2 : (2 : Nat) ^ (b + 6) = 64 * 2 ^ b := by rw [pow_add]; ring
      have h3 : (2 : Nat) ^ (b + 6) ≤ 2 ^ 8000 := Nat.pow_le_pow_right (by decide) (by omega)
      refine lt_of_lt_of_le ?_ h3
      rw [h2]
      rw [h1] at hf
      generalize (2 : Nat) ^ b = w at *
      omega
    obtain ⟨o, j, o1, o2⟩ := genLoop_run hg f (i := i + 1) a2 a3 hlt (by omega)
    rw [o1]
    rcases o2 with ⟨R, k, t, rfl, r2, r3, r4⟩ | rfl | ⟨e, t, n, rfl, h⟩
    · refine ⟨_, _, rfl, .inl ⟨R, rfl, r2, ⟨?_, ?_, R, k, j, r2.wf, r2.pos, rfl, r4⟩⟩⟩
      · rw [r3, a4]; omega
      · rw [r3, a4]; omega
    · exact ⟨_, _, rfl, .inr (.inl rfl)⟩
    · exact ⟨_, _, rfl, .inr (.inr ⟨e, t, n, rfl, h⟩)⟩
  · rw [e2]
    exact ⟨_, _, rfl, .inr (.inr ⟨e, i, _, rfl, e1⟩)⟩

/-! ## Pairs of primes -/

/-- The sizes of the integers of the loop. -/
structure Room (c : Ctx) (l : Loc) : Prop where
  P : c.P.WF ∧ c.P.p.length ≤ 128
  Q : c.Q.WF ∧ c.Q.p.length ≤ 128
  N : c.N.WF ∧ c.N.p.length ≤ 300
  P1 : l.P1.WF ∧ l.P1.p.length ≤ 300
  Q1 : l.Q1.WF ∧ l.Q1.p.length ≤ 300
  H : l.H.WF ∧ l.H.p.length ≤ 300
  G : l.G.WF ∧ l.G.p.length ≤ 300

/-- The loop changes only these members. -/
def Frame (c d : Ctx) : Prop := d = { c with N := d.N, P := d.P, Q := d.Q }

theorem Frame.trans {a b c : Ctx} (h1 : Frame a b) (h2 : Frame b c) : Frame a c := by
  unfold Frame at *
  rw [h2, h1]

/-- What holds when the loop ends. -/
structure Pair (g : Rng) (nbits e : Nat) (c : Ctx) (l : Loc) : Prop where
  P : U c.P c.P.mag 128
  Q : U c.Q c.Q.mag 128
  lt : c.Q.mag < c.P.mag
  N : U c.N (c.P.mag * c.Q.mag) 300
  bits : bitlen (c.P.mag * c.Q.mag) = nbits
  P1 : V l.P1 ((c.P.mag : Int) - 1) 300
  Q1 : V l.Q1 ((c.Q.mag : Int) - 1) 300
  H : V l.H (((c.P.mag - 1) * (c.Q.mag - 1) : Nat) : Int) 300
  gcd : Nat.gcd e ((c.P.mag - 1) * (c.Q.mag - 1)) = 1
  accP : Accepted g (nbits / 2) c.P.mag
  accQ : Accepted g (nbits / 2) c.Q.mag

theorem V.of_wf {X : Mpi} {k : Nat} (h : X.WF ∧ X.p.length ≤ k) : V X X.toInt k := ⟨h.1, rfl, h.2⟩

theorem cmpEq_iff {X Y : Mpi} {m n kx ky : Nat} (hX : U X m kx) (hY : U Y n ky) : cmpMpi X Y = 0 ↔ m = n := by
  rw [cmpMpi_spec hX.wf hY.wf, hX.v.val, hY.v.val]
  unfold sgn
  split
  · omega
  · split <;> omega

theorem cmpLt_iff {X Y : Mpi} {m n kx ky : Nat} (hX : U X m kx) (hY : U Y n ky) : cmpMpi X Y < 0 ↔ m < n := by
  rw [cmpMpi_spec hX.wf hY.wf, hX.v.val, hY.v.val]
  unfold sgn
  split
  · omega
  · split <;> omega

theorem cmpOne_iff {X : Mpi} (hX : X.WF) : cmpInt X 1 = 0 ↔ X.toInt = 1 := by
  rw [cmpInt_spec hX (by decide)]
  unfold sgn
  split
  · omega
  · split <;> omega

theorem genTest_run {g : Rng} {nbits e : Nat} (hnb : 128 ≤ nbits) {c : Ctx} {l : Loc} (hr : Room c l) (hE : U c.E e 1) (hP : U c.P c.P.mag 128) (hQ : U c.Q c.Q.mag 128)
    (aP : Accepted g (nbits / 2) c.P.mag) (aQ : Accepted g (nbits / 2) c.Q.mag) (i : Nat) :
    ∃ l' c', genTest nbits l c i = (.ok l', c', i) ∧ Frame c c' ∧ Room c' l' ∧ (l' = l ∨ l'.G.toInt ≠ 1 ∨ Pair g nbits e c' l') ∧
      (c.P.mag ≠ c.Q.mag → bitlen (c.P.mag * c.Q.mag) = nbits → Nat.gcd e ((c.P.mag - 1) * (c.Q.mag - 1)) = 1 →
        l'.G.toInt = 1 ∧ Pair g nbits e c' l' ∧ c'.P.mag = max c.P.mag c.Q.mag ∧ c'.Q.mag = min c.P.mag c.Q.mag) := by
  unfold genTest
  rw [get_bind]
  by_cases h0 : cmpMpi c.P c.Q = 0
  · rw [if_pos h0]
    exact ⟨l, c, rfl, rfl, hr, .inl rfl, fun h => absurd ((cmpEq_iff hP hQ).1 h0) h⟩
  rw [if_neg h0]
  rw [cmpEq_iff hP hQ] at h0
  obtain ⟨N, n1, n2, _, n4⟩ := mul_V (V.of_wf hr.N) (VA.ext hP.v) (VA.ext hQ.v) (by omega)
  have hN : U N (c.P.mag * c.Q.mag) 300 := by
    refine U.of_nonneg ?_ (n4 hP.pos hQ.pos)
    have := n2.mono (l := 300) (by omega)
    exact_mod_cast this
  rw [of_bind_ok n1, put_bind]
  by_cases hb : bitlenL N ≠ nbits
  · rw [if_pos hb]
    exact ⟨l, { c with N := N }, rfl, rfl, ⟨hr.P, hr.Q, ⟨hN.wf, hN.len⟩, hr.P1, hr.Q1, hr.H, hr.G⟩, .inl rfl, fun _ h => absurd (by
      rw [bitlenL_spec hN.wf, hN.val]; exact h) hb⟩
  rw [if_neg hb]
  have hb : bitlen (c.P.mag * c.Q.mag) = nbits := by
    have := not_ne_iff.1 hb
    rwa [bitlenL_spec hN.wf, hN.val] at this
  have hlow : 1 < 2 ^ (nbits / 2 - 1) := Nat.one_lt_two_pow (by omega)
  -- the context after the exchange
  obtain ⟨d, hd, dE, dF, dP, dQ, dN, dlt, dbits, daP, daQ, dmax, dmin⟩ : ∃ d : Ctx,
      (if cmpMpi c.P c.Q < 0 then { c with N := N, P := c.Q, Q := c.P } else { c with N := N }) = d ∧ d.E = c.E ∧ Frame c d ∧ U d.P d.P.mag 128 ∧ U d.Q d.Q.mag 128 ∧
      U d.N (d.P.mag * d.Q.mag) 300 ∧ d.Q.mag < d.P.mag ∧ bitlen (d.P.mag * d.Q.mag) = nbits ∧ Accepted g (nbits / 2) d.P.mag ∧ Accepted g (nbits / 2) d.Q.mag ∧
      d.P.mag = max c.P.mag c.Q.mag ∧ d.Q.mag = min c.P.mag c.Q.mag := by
    by_cases hc : cmpMpi c.P c.Q < 0
    · rw [if_pos hc]
      rw [cmpLt_iff hP hQ] at hc
      refine ⟨_, rfl, rfl, rfl, hQ, hP, ?_, hc, ?_, aQ, aP, (max_eq_right hc.le).symm, (min_eq_left hc.le).symm⟩
      · show U N (c.Q.mag * c.P.mag) 300
        rw [mul_comm]; exact hN
      · show bitlen (c.Q.mag * c.P.mag) = nbits
        rw [mul_comm]; exact hb
    · rw [if_neg hc]
      rw [cmpLt_iff hP hQ] at hc
      refine ⟨_, rfl, rfl, rfl, hP, hQ, hN, ?_, hb, aP, aQ, (max_eq_left (not_lt.1 hc)).symm, (min_eq_right (not_lt.1 hc)).symm⟩
      show c.Q.mag < c.P.mag
      omega
  rw [hd, put_bind]
  have hp1 : 1 < d.P.mag := lt_of_lt_of_le hlow daP.low
  have hq1 : 1 < d.Q.mag := lt_of_lt_of_le hlow daQ.low
  obtain ⟨P1, p1, p2⟩ := sub1_V (V.of_wf hr.P1) (VA.ext dP.v) (by omega)
  obtain ⟨Q1, q1, q2⟩ := sub1_V (V.of_wf hr.Q1) (VA.ext dQ.v) (by omega)
  have p2' := p2.mono (l := 300) (by omega)
  have q2' := q2.mono (l := 300) (by omega)
  have lp : limbs ((d.P.mag : Int) - 1).natAbs ≤ 128 := Rsa.limbs_lt (m := d.P.mag) (by omega) (limbs_U dP)
  have lq : limbs ((d.Q.mag : Int) - 1).natAbs ≤ 128 := Rsa.limbs_lt (m := d.Q.mag) (by omega) (limbs_U dQ)
  obtain ⟨H, h1, h2, _⟩ := mul_L (V.of_wf hr.H) (VA.ext p2') (VA.ext q2') lp lq (by omega)
  have eH : ((d.P.mag : Int) - 1) * ((d.Q.mag : Int) - 1) = (((d.P.mag - 1) * (d.Q.mag - 1) : Nat) : Int) := by
    rw [Nat.cast_mul, Nat.cast_sub (by omega), Nat.cast_sub (by omega)]
    rfl
  rw [eH] at h2
  have h2' := h2.mono (l := 300) (by omega)
  obtain ⟨G, g1, g2⟩ := gcd_V (V.of_wf hr.G) hE.v h2'
  have g2' := g2.mono (l := 300) (by omega)
  rw [of_bind_ok p1, of_bind_ok q1, of_bind_ok h1, dE, of_bind_ok g1]
  refine ⟨⟨P1, Q1, H, G⟩, d, rfl, dF, ⟨⟨dP.wf, dP.len⟩, ⟨dQ.wf, dQ.len⟩, ⟨dN.wf, dN.len⟩, ⟨p2'.wf, p2'.len⟩, ⟨q2'.wf, q2'.len⟩, ⟨h2'.wf, h2'.len⟩, ⟨g2'.wf, g2'.len⟩⟩, ?_⟩
  have hpos : 0 < (d.P.mag - 1) * (d.Q.mag - 1) := Nat.mul_pos (by omega) (by omega)
  have hval : G.toInt = (Nat.gcd e ((d.P.mag - 1) * (d.Q.mag - 1)) : Nat) := by
    rw [g2.val, Int.natAbs_natCast, Int.natAbs_natCast, mpiGcd_pos (by omega)]
  have hpair : G.toInt = 1 → Pair g nbits e d ⟨P1, Q1, H, G⟩ := by
    intro hG
    refine ⟨dP, dQ, dlt, dN, dbits, p2', q2', h2', ?_, daP, daQ⟩
    rw [hval] at hG
    exact_mod_cast hG
  refine ⟨?_, fun _ _ h => ?_⟩
  · by_cases hG : G.toInt = 1
    · exact .inr (.inr (hpair hG))
    · exact .inr (.inl hG)
  · have hG : G.toInt = 1 := by
      rw [hval]
      rcases le_total c.P.mag c.Q.mag with hle | hle
      · rw [max_eq_right hle] at dmax
        rw [min_eq_left hle] at dmin
        rw [dmax, dmin, mul_comm, h]
        rfl
      · rw [max_eq_left hle] at dmax
        rw [min_eq_right hle] at dmin
        rw [dmax, dmin, h]
        rfl
    exact ⟨hG, hpair hG, dmax, dmin⟩

theorem genRound_run {g : Rng} (hg : g.Ok) {f nbits e : Nat} (hnb : 128 ≤ nbits) (hnb2 : nbits ≤ 8192) (hf : f ≤ 2 ^ (nbits / 2 + 4)) {c : Ctx} {l : Loc} (hr : Room c l) (hE : U c.E e 1) (i : Nat) :
    ∃ o c' j, genRound g f nbits l c i = (o, c', j) ∧ Frame c c' ∧
      (o = .ok none ∨ (∃ er t n, o = .err er ∧ g t n = .err er) ∨ ∃ l', o = .ok (some l') ∧ Room c' l' ∧ (l' = l ∨ l'.G.toInt ≠ 1 ∨ Pair g nbits e c' l')) := by
  unfold genRound
  rw [get_bind]
  obtain ⟨o, j, o1, o2⟩ := primeFor_run hg (b := nbits / 2) (by omega) (by omega) hf hr.P.1 hr.P.2 i
  rcases o2 with ⟨P, rfl, p2, p3⟩ | rfl | ⟨er, t, n, rfl, h⟩
  swap
  · rw [rand_bind_ok o1]
    exact ⟨_, c, j, rfl, rfl, .inl rfl⟩
  swap
  · rw [bind_err (show St.rand (primeFor g f c.P (nbits / 2)) c i = (.err er, c, j) by unfold St.rand; rw [o1])]
    exact ⟨_, c, j, rfl, rfl, .inr (.inl ⟨er, t, n, rfl, h⟩)⟩
  rw [rand_bind_ok o1]
  simp only
  rw [put_bind]
  obtain ⟨o', j', q1, q2⟩ := primeFor_run hg (b := nbits / 2) (by omega) (by omega) hf hr.Q.1 hr.Q.2 j
  rcases q2 with ⟨Q, rfl, q2, q3⟩ | rfl | ⟨er, t, n, rfl, h⟩
  swap
  · rw [rand_bind_ok q1]
    exact ⟨_, _, j', rfl, rfl, .inl rfl⟩
  swap
  · rw [bind_err (show St.rand (primeFor g f c.Q (nbits / 2)) { c with P := P } j = (.err er, { c with P := P }, j') by unfold St.rand; rw [q1])]
    exact ⟨_, _, j', rfl, rfl, .inr (.inl ⟨er, t, n, rfl, h⟩)⟩
  rw [rand_bind_ok q1]
  simp only
  rw [put_bind]
  have hr' : Room { c with P := P, Q := Q } l := ⟨⟨p2.wf, p2.len⟩, ⟨q2.wf, q2.len⟩, hr.N, hr.P1, hr.Q1, hr.H, hr.G⟩
  obtain ⟨l', c', r1, r2, r3, r4, _⟩ := genTest_run (e := e) hnb hr' hE p2 q2 p3 q3 j'
  rw [bind_ok r1]
  exact ⟨_, c', j', rfl, Frame.trans (b := { c with P := P, Q := Q }) (show Frame c { c with P := P, Q := Q } from rfl) r2, .inr (.inr ⟨l', rfl, r3, r4⟩)⟩

/-- The loop ends only with a pair of primes for which `G` is 1: `continue` after a pair that is refused cannot end it, because `G` was not 1 before. -/
theorem genPairs_run {g : Rng} (hg : g.Ok) {f nbits e : Nat} (hnb : 128 ≤ nbits) (hnb2 : nbits ≤ 8192) (hf : f ≤ 2 ^ (nbits / 2 + 4)) :
    ∀ (fuel : Nat) {c : Ctx} {l : Loc}, Room c l → U c.E e 1 → l.G.toInt ≠ 1 → ∀ i,
    ∃ o c' j, genPairs g f nbits fuel l c i = (o, c', j) ∧ Frame c c' ∧
      (o = .ok none ∨ (∃ er t n, o = .err er ∧ g t n = .err er) ∨ ∃ l', o = .ok (some l') ∧ Pair g nbits e c' l') := by
  intro fuel
  induction fuel with
  | zero => intro c l _ _ _ i; exact ⟨_, c, i, rfl, rfl, .inl rfl⟩
  | succ fuel ih =>
    intro c l hr hE hG i
    unfold genPairs
    obtain ⟨o, c', j, r1, r2, r3⟩ := genRound_run hg hnb hnb2 hf hr hE i
    rcases r3 with rfl | ⟨er, t, n, rfl, h⟩ | ⟨l', rfl, r4, r5⟩
    · rw [bind_ok r1]
      exact ⟨_, c', j, rfl, r2, .inl rfl⟩
    · rw [bind_err r1]
      exact ⟨_, c', j, rfl, r2, .inr (.inl ⟨er, t, n, rfl, h⟩)⟩
    · rw [bind_ok r1]
      simp only
      have hc := cmpOne_iff r4.G.1
      by_cases h1 : l'.G.toInt = 1
      · rw [if_neg (by simpa using hc.2 h1)]
        refine ⟨_, c', j, rfl, r2, .inr (.inr ⟨l', rfl, ?_⟩)⟩
        rcases r5 with rfl | r5 | r5
        · exact absurd h1 hG
        · exact absurd h1 r5
        · exact r5
      · rw [if_pos (fun h => h1 (hc.1 h))]
        have hE' : U c'.E e 1 := by rw [r2]; exact hE
        obtain ⟨o, d, k, s1, s2, s3⟩ := ih r4 hE' h1 j
        exact ⟨o, d, k, s1, r2.trans s2, s3⟩

/-! ## The key -/

/-- What key generation makes: a context in shape, which `Verif.Tdp.genKey` makes from its two primes. -/
structure Made (g : Rng) (nbits e : Nat) (c : Ctx) : Prop where
  good : Good c
  parts : ¬ (c.P.p = [] ∨ c.Q.p = [] ∨ c.D.p = [])
  lt : c.Q.mag < c.P.mag
  accP : Accepted g (nbits / 2) c.P.mag
  accQ : Accepted g (nbits / 2) c.Q.mag
  gen : Tdp.genKey (fun k => if k = 0 then c.P.mag else c.Q.mag) nbits e 1 = some (some (abs c))

theorem CacheOk.null {N : Mpi} : CacheOk N (some .null) := by
  intro m hm hp
  cases hm
  exact absurd rfl hp

theorem genRest_ok {l : Loc} {c : Ctx} {D A B F : Mpi} (h1 : invMod c.D c.E l.H = .ok D) (h2 : modMpi c.DP (.ext D) l.P1 = .ok A) (h3 : modMpi c.DQ (.ext D) l.Q1 = .ok B)
    (h4 : invMod c.QP c.Q c.P = .ok F) (i : Nat) :
    genRest l c i = (.ok (), { c with D := D, DP := A, DQ := B, QP := F, len := (bitlenL c.N + 7) / 8 }, i) := by
  unfold genRest
  rw [get_bind, of_bind_ok h1, of_bind_ok h2, of_bind_ok h3, of_bind_ok h4]
  rfl

theorem genRest_err {l : Loc} {c : Ctx} {D A B : Mpi} {e : Err} (h1 : invMod c.D c.E l.H = .ok D) (h2 : modMpi c.DP (.ext D) l.P1 = .ok A)
    (h3 : modMpi c.DQ (.ext D) l.Q1 = .ok B) (h4 : invMod c.QP c.Q c.P = .err e) (i : Nat) : genRest l c i = (.err e, c, i) := by
  unfold genRest
  rw [get_bind, of_bind_ok h1, of_bind_ok h2, of_bind_ok h3, of_bind_err h4]

theorem genRest_frame {l : Loc} {c d : Ctx} {i j : Nat} (h : genRest l c i = (.ok (), d, j)) : d.P = c.P ∧ d.Q = c.Q := by
  unfold genRest at h
  rw [get_bind] at h
  cases h1 : invMod c.D c.E l.H with
  | ok D =>
    rw [of_bind_ok h1] at h
    cases h2 : modMpi c.DP (.ext D) l.P1 with
    | ok A =>
      rw [of_bind_ok h2] at h
      cases h3 : modMpi c.DQ (.ext D) l.Q1 with
      | ok B =>
        rw [of_bind_ok h3] at h
        cases h4 : invMod c.QP c.Q c.P with
        | ok F =>
          rw [of_bind_ok h4] at h
          cases h
          exact ⟨rfl, rfl⟩
        | err e => rw [of_bind_err h4] at h; cases h
        | ub =>
          rw [bind_apply, St.of, h4] at h; cases h
      | err e => rw [of_bind_err h3] at h; cases h
      | ub =>
        rw [bind_apply, St.of, h3] at h; cases h
    | err e => rw [of_bind_err h2] at h; cases h
    | ub =>
      rw [bind_apply, St.of, h2] at h; cases h
  | err e => rw [of_bind_err h1] at h; cases h
  | ub =>
    rw [bind_apply, St.of, h1] at h; cases h

/-- The rest of `genBody` after the loop. -/
def afterPairs (r : Option Loc) : St Bool :=
  match r with
  | none => pure false
  | some l => do
    genRest l
    pure true

theorem genBody_eq {g : Rng} {f fuel nbits : Nat} {e : Int} {c : Ctx} {E : Mpi} (h : lset c.E e = .ok E) (i : Nat) :
    genBody g f fuel nbits e c i = St.next (genPairs g f nbits fuel ⟨.null, .null, .null, .null⟩ { c with E := E } i) afterPairs := by
  unfold genBody
  rw [get_bind, of_bind_ok h, put_bind]
  rfl

theorem genRest_run {g : Rng} {nbits e : Nat} (hnb : 128 ≤ nbits) (hev : nbits % 2 = 0) (he : 3 ≤ e) {E N P Q : Mpi} {l : Loc} (hE : U E e 1)
    (hp : Pair g nbits e { Ctx.init with E := E, N := N, P := P, Q := Q } l) (i : Nat) :
    (Nat.gcd Q.mag P.mag = 1 ∧ ∃ c', genRest l { Ctx.init with E := E, N := N, P := P, Q := Q } i = (.ok (), c', i) ∧ Made g nbits e c') ∨
    (Nat.gcd Q.mag P.mag ≠ 1 ∧ ∃ er, genRest l { Ctx.init with E := E, N := N, P := P, Q := Q } i = (.err er, { Ctx.init with E := E, N := N, P := P, Q := Q }, i)) := by
  obtain ⟨hP, hQ, hlt, hN, hbits, hP1, hQ1, hH, hgcd, accP, accQ⟩ := hp
  simp only at hP hQ hlt hN hbits hP1 hQ1 hH hgcd accP accQ
  have hlow : 2 < 2 ^ (nbits / 2 - 1) := by
    calc 2 < 2 ^ 2 := by decide
      _ ≤ 2 ^ (nbits / 2 - 1) := Nat.pow_le_pow_right (by decide) (by omega)
  have hp1 : 2 < P.mag := lt_of_lt_of_le hlow accP.low
  have hq1 : 2 < Q.mag := lt_of_lt_of_le hlow accQ.low
  have hH1 : 1 < (P.mag - 1) * (Q.mag - 1) := by
    have h1 : 2 ≤ P.mag - 1 := by omega
    have h2 : 2 ≤ Q.mag - 1 := by omega
    nlinarith
  obtain ⟨D, d1, d2, d3⟩ := mpiInv_spec hH1 hgcd
  have hD := inv_U U.null.v hE.v hH (by omega) (by omega)
  rw [d1] at hD
  obtain ⟨DX, D1, D2, D3⟩ := hD
  have eP : ((P.mag : Int) - 1) = ((P.mag - 1 : Nat) : Int) := by omega
  have eQ : ((Q.mag : Int) - 1) = ((Q.mag - 1 : Nat) : Int) := by omega
  rw [eP] at hP1
  rw [eQ] at hQ1
  obtain ⟨A, a1, a2, _, a4⟩ := mod_V U.null.v (VA.ext D2.v) hP1 (by omega) (by omega)
  obtain ⟨B, b1, b2, _, b4⟩ := mod_V U.null.v (VA.ext D2.v) hQ1 (by omega) (by omega)
  have hA : U A (D % (P.mag - 1)) 300 := by
    refine U.of_nonneg ?_ (a4 D2.pos)
    have := a2.mono (l := 300) (by omega)
    exact_mod_cast this
  have hB : U B (D % (Q.mag - 1)) 300 := by
    refine U.of_nonneg ?_ (b4 D2.pos)
    have := b2.mono (l := 300) (by omega)
    exact_mod_cast this
  have hQP := inv_U U.null.v hQ.v hP.v (by omega) (by omega)
  by_cases hc : Nat.gcd Q.mag P.mag = 1
  · left
    obtain ⟨q, q1, q2, q3⟩ := mpiInv_spec (show 1 < P.mag by omega) hc
    rw [q1] at hQP
    obtain ⟨F, f1, f2, _⟩ := hQP
    refine ⟨hc, ⟨(bitlenL N + 7) / 8, N, E, DX, P, Q, A, B, F, .null, .null, .null, .null, .null⟩,
      genRest_ok (c := ⟨0, N, E, .null, P, Q, .null, .null, .null, .null, .null, .null, .null, .null⟩) D1 a1 b1 f1 i, ⟨?_, ?_, hlt, accP, accQ, ?_⟩⟩
    · exact ⟨⟨hN.wf, hN.pos, rfl, hN.len⟩, ⟨hE.wf, hE.pos, rfl, le_trans hE.len (by decide)⟩, ⟨D2.wf, D2.pos, rfl, le_trans D2.len (by decide)⟩,
        ⟨hP.wf, hP.pos, rfl, le_trans hP.len (by decide)⟩, ⟨hQ.wf, hQ.pos, rfl, le_trans hQ.len (by decide)⟩, ⟨hA.wf, hA.pos, rfl, hA.len⟩,
        ⟨hB.wf, hB.pos, rfl, hB.len⟩, ⟨f2.wf, f2.pos, rfl, le_trans f2.len (by decide)⟩, CacheOk.null, CacheOk.null, CacheOk.null,
        ⟨U.null.wf, rfl, rfl, Nat.zero_le _⟩, ⟨U.null.wf, rfl, rfl, Nat.zero_le _⟩,
        show limbs Mpi.null.mag ≤ 301 by decide, show limbs Mpi.null.mag ≤ 301 by decide⟩
    · rintro (h | h | h)
      · exact nonnil_of_mag (show P.mag ≠ 0 by omega) h
      · exact nonnil_of_mag (show Q.mag ≠ 0 by omega) h
      · exact D3 h
    · unfold Tdp.genKey
      rw [if_neg (by omega)]
      unfold Tdp.genLoop
      simp only [if_true, Nat.zero_add, one_ne_zero, if_false]
      have hnl : ¬ P.mag < Q.mag := by omega
      simp only [if_neg (show ¬ P.mag = Q.mag by omega), if_neg (show ¬ bitlen (P.mag * Q.mag) ≠ nbits by rw [hbits]; simp), if_neg hnl]
      rw [if_neg (by rw [mpiGcd_pos (by omega), hgcd]; simp)]
      simp only [Option.map_some]
      rw [d1, q1, Option.bind_eq_bind, Option.bind_some, mpiMod_nat (by omega : 0 < P.mag - 1), mpiMod_nat (by omega : 0 < Q.mag - 1)]
      simp only [Option.bind_some, Option.pure_def]
      unfold abs
      simp only
      rw [if_neg (by
        rintro (h | h | h)
        · exact nonnil_of_mag (show P.mag ≠ 0 by omega) h
        · exact nonnil_of_mag (show Q.mag ≠ 0 by omega) h
        · exact D3 h), if_pos (show Mpi.null.p = [] from rfl), bitlenL_spec hN.wf, hN.val, hE.val, D2.val, hA.val, hB.val, f2.val]
  · right
    have : mpiInv Q.mag P.mag = none := by
      unfold mpiInv
      rw [if_neg (by omega), if_pos (by rw [mpiGcd_pos (by omega)]; exact hc)]
    rw [this] at hQP
    obtain ⟨er, hQP⟩ := hQP
    exact ⟨hc, er, genRest_err (c := ⟨0, N, E, .null, P, Q, .null, .null, .null, .null, .null, .null, .null, .null⟩) D1 a1 b1 hQP i⟩

/-- `mbedtls_rsa_gen_key` on a context that is just initialised. -/
theorem rsaGenKey_run {g : Rng} (hg : g.Ok) {f fuel nbits e : Nat} (hnb2 : nbits ≤ 8192) (hf : f ≤ 2 ^ (nbits / 2 + 4)) (he : e < W64) (i : Nat) :
    ∃ o c j, rsaGenKey g f fuel nbits e .init i = (o, c, j) ∧
      ((o = .ok true ∧ Made g nbits e c) ∨ o = .ok false ∨
      ∃ er, o = .err er ∧ c = .init ∧ ((er = .badInput ∧ j = i ∧ (nbits < 128 ∨ e < 3 ∨ nbits % 2 = 1)) ∨ (∃ t n, g t n = .err er) ∨
        ∃ p q, q < p ∧ Accepted g (nbits / 2) p ∧ Accepted g (nbits / 2) q ∧ Nat.gcd q p ≠ 1)) := by
  unfold rsaGenKey
  by_cases h1 : nbits < 128 ∨ (e : Int) < 3
  · rw [if_pos h1]
    exact ⟨_, _, _, rfl, .inr (.inr ⟨_, rfl, rfl, .inl ⟨rfl, rfl, by omega⟩⟩)⟩
  rw [if_neg h1]
  by_cases h2 : nbits % 2 ≠ 0
  · rw [if_pos h2]
    exact ⟨_, _, _, rfl, .inr (.inr ⟨_, rfl, rfl, .inl ⟨rfl, rfl, by omega⟩⟩)⟩
  rw [if_neg h2]
  obtain ⟨E, e1, e2, e3, e4, e5, e6⟩ := lset_spec Mpi.null_WF (z := (e : Int)) (by rw [Int.natAbs_natCast]; exact he)
  have hE : U E e 1 := ⟨e2, by rw [e5]; simp, by rw [e6, Int.natAbs_natCast], by
    have h0 : Mpi.null.p.length = 0 := rfl
    omega⟩
  have hroom : Room { Ctx.init with E := E } ⟨.null, .null, .null, .null⟩ := by
    have : ∀ k, Mpi.null.WF ∧ Mpi.null.p.length ≤ k := fun k => ⟨Mpi.null_WF, Nat.zero_le _⟩
    exact ⟨this _, this _, this _, this _, this _, this _, this _⟩
  obtain ⟨o, c, j, r1, r2, r3⟩ := genPairs_run hg (e := e) (by omega) hnb2 hf fuel hroom hE (by decide) i
  have hbody : genBody g f fuel nbits e .init i = St.next (o, c, j) afterPairs := by
    rw [genBody_eq (c := Ctx.init) e1 i]
    exact congrArg (St.next · afterPairs) r1
  rw [hbody]
  rcases r3 with rfl | ⟨er, t, n, rfl, h⟩ | ⟨l, rfl, hp⟩
  · exact ⟨_, _, _, rfl, .inr (.inl rfl)⟩
  · exact ⟨_, _, _, rfl, .inr (.inr ⟨er, rfl, rfl, .inr (.inl ⟨t, n, h⟩)⟩)⟩
  · have hc : c = { Ctx.init with E := E, N := c.N, P := c.P, Q := c.Q } := r2
    rw [hc] at hp
    have hm := genRest_run (by omega) (by omega) (by omega) hE hp j
    rw [← hc] at hm
    rcases hm with ⟨_, c', m1, m2⟩ | ⟨m0, er, m1⟩
    · refine ⟨.ok true, c', j, ?_, .inl ⟨rfl, m2⟩⟩
      show orInit ((genRest l >>= fun _ => pure true) c j) = _
      rw [bind_ok m1]
      rfl
    · refine ⟨.err er, .init, j, ?_, .inr (.inr ⟨er, rfl, rfl, .inr (.inr ⟨c.P.mag, c.Q.mag, hp.lt, hp.accP, hp.accQ, m0⟩)⟩)⟩
      show orInit ((genRest l >>= fun _ => pure true) c j) = _
      rw [bind_err m1]
      rfl

theorem genRound_two {g : Rng} {f nbits : Nat} {l : Loc} {c : Ctx} {P Q : Mpi} {i j k : Nat} (h1 : primeFor g f c.P (nbits / 2) i = (.ok (some P), j))
    (h2 : primeFor g f c.Q (nbits / 2) j = (.ok (some Q), k)) :
    genRound g f nbits l c i = St.next (genTest nbits l { c with P := P, Q := Q } k) (fun l => pure (some l)) := by
  unfold genRound
  rw [get_bind, rand_bind_ok h1]
  simp only
  rw [put_bind, rand_bind_ok h2]
  rfl

/-- Key generation ends with the first pair of primes if it is a good one. -/
theorem rsaGenKey_first {g : Rng} (hg : g.Ok) {f nbits e : Nat} (hnb : 128 ≤ nbits) (hnb2 : nbits ≤ 8192) (hev : nbits % 2 = 0) (hf : f ≤ 2 ^ (nbits / 2 + 4)) (he3 : 3 ≤ e)
    (he : e < W64) {i j k : Nat} {P Q : Mpi} (h1 : primeFor g f .null (nbits / 2) i = (.ok (some P), j)) (h2 : primeFor g f .null (nbits / 2) j = (.ok (some Q), k))
    (hne : P.mag ≠ Q.mag) (hb : bitlen (P.mag * Q.mag) = nbits) (hgcd : Nat.gcd e ((P.mag - 1) * (Q.mag - 1)) = 1) (hco : Nat.gcd P.mag Q.mag = 1) (fuel : Nat) :
    ∃ c, rsaGenKey g f (fuel + 1) nbits e .init i = (.ok true, c, k) ∧ Made g nbits e c ∧ c.P.mag = max P.mag Q.mag ∧ c.Q.mag = min P.mag Q.mag := by
  unfold rsaGenKey
  rw [if_neg (by omega), if_neg (by omega)]
  obtain ⟨E, e1, e2, e3, e4, e5, e6⟩ := lset_spec Mpi.null_WF (z := (e : Int)) (by rw [Int.natAbs_natCast]; exact he)
  have hE : U E e 1 := ⟨e2, by rw [e5]; simp, by rw [e6, Int.natAbs_natCast], by
    have h0 : Mpi.null.p.length = 0 := rfl
    omega⟩
  have hz : ∀ k, Mpi.null.WF ∧ Mpi.null.p.length ≤ k := fun k => ⟨Mpi.null_WF, Nat.zero_le _⟩
  have acc : ∀ {i j : Nat} {R : Mpi}, primeFor g f .null (nbits / 2) i = (.ok (some R), j) → U R R.mag 128 ∧ Accepted g (nbits / 2) R.mag := by
    intro i j R h
    obtain ⟨o, j', o1, o2⟩ := primeFor_run hg (b := nbits / 2) (by omega) (by omega) hf Mpi.null_WF (Nat.zero_le _) i
    rw [h] at o1
    cases o1
    rcases o2 with ⟨R', o2, o3⟩ | o2 | ⟨_, _, _, o2, _⟩ <;> cases o2
    exact o3
  obtain ⟨uP, aP⟩ := acc h1
  obtain ⟨uQ, aQ⟩ := acc h2
  have hroom : Room { Ctx.init with E := E, P := P, Q := Q } ⟨.null, .null, .null, .null⟩ :=
    ⟨⟨uP.wf, uP.len⟩, ⟨uQ.wf, uQ.len⟩, hz _, hz _, hz _, hz _, hz _⟩
  obtain ⟨l', c', r1, r2, r3, r4, r5⟩ := genTest_run (e := e) hnb hroom hE uP uQ aP aQ k
  obtain ⟨r6, r7, r8, r9⟩ := r5 hne hb hgcd
  have hround : genRound g f nbits ⟨.null, .null, .null, .null⟩ { Ctx.init with E := E } i = (.ok (some l'), c', k) := by
    refine (genRound_two (c := ⟨0, .null, E, .null, .null, .null, .null, .null, .null, .null, .null, .null, .null, .null⟩) h1 h2).trans ?_
    exact congrArg (St.next · fun l => pure (some l)) r1
  have hpairs : genPairs g f nbits (fuel + 1) ⟨.null, .null, .null, .null⟩ { Ctx.init with E := E } i = (.ok (some l'), c', k) := by
    rw [genPairs, bind_ok hround]
    simp only
    rw [if_neg (by simpa using (cmpOne_iff r3.G.1).2 r6)]
    rfl
  have hbody : genBody g f (fuel + 1) nbits e .init i = St.next (.ok (some l'), c', k) afterPairs := by
    rw [genBody_eq (c := Ctx.init) e1 i]
    exact congrArg (St.next · afterPairs) hpairs
  rw [hbody]
  have hc : c' = { Ctx.init with E := E, N := c'.N, P := c'.P, Q := c'.Q } := r2
  have r7' := r7
  rw [hc] at r7'
  have hm := genRest_run (by omega) hev he3 hE r7' k
  rw [← hc] at hm
  have hpq : Nat.gcd c'.Q.mag c'.P.mag = 1 := by
    rw [r8, r9]
    rcases le_total P.mag Q.mag with hle | hle
    · rw [show ({ Ctx.init with E := E, P := P, Q := Q } : Ctx).P = P from rfl, show ({ Ctx.init with E := E, P := P, Q := Q } : Ctx).Q = Q from rfl, min_eq_left hle,
        max_eq_right hle, hco]
    · rw [show ({ Ctx.init with E := E, P := P, Q := Q } : Ctx).P = P from rfl, show ({ Ctx.init with E := E, P := P, Q := Q } : Ctx).Q = Q from rfl, min_eq_right hle,
        max_eq_left hle, Nat.gcd_comm, hco]
  rcases hm with ⟨_, d, m1, m2⟩ | ⟨m0, _⟩
  · have hd : d.P = c'.P ∧ d.Q = c'.Q := genRest_frame m1
    refine ⟨d, ?_, m2, by rw [hd.1, r8], by rw [hd.2, r9]⟩
    show orInit ((genRest l' >>= fun _ => pure true) c' k) = _
    rw [bind_ok m1]
    rfl
  · exact absurd hpq m0

end Verif.Rsa
