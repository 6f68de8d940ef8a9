import Verif.Bignum.Sprp
import Mathlib.GroupTheory.Index
import Mathlib.Data.ZMod.QuotientRing
import Mathlib.RingTheory.IntegralDomain
import Mathlib.Algebra.Squarefree.Basic
import Mathlib.Data.Nat.Squarefree

/-!
# A composite number passes the Miller-Rabin test for at most a quarter of the bases

Rabin's theorem.  Nothing in this file mentions the library.
-/

namespace Verif.Bignum

open Nat

/-! ## Subgroups -/

/-- The elements with `f x ^ M = ±1`. -/
def signs {G R : Type} [CommGroup G] [CommRing R] (f : G →* R) (M : Nat) : Subgroup G where
  carrier := {y | f y ^ M = 1 ∨ f y ^ M = -1}
  mul_mem' := by
    rintro a b (ha | ha) (hb | hb) <;> simp [mul_pow, ha, hb]
  one_mem' := by simp
  inv_mem' := by
    rintro a (ha | ha)
    · left
      have h : f a⁻¹ ^ M * f a ^ M = 1 := by rw [← mul_pow, ← map_mul]; simp
      rwa [ha, mul_one] at h
    · right
      have h : f a⁻¹ ^ M * f a ^ M = 1 := by rw [← mul_pow, ← map_mul]; simp
      rw [ha, mul_neg, mul_one] at h
      rw [← h, neg_neg]

theorem mem_signs {G R : Type} [CommGroup G] [CommRing R] {f : G →* R} {M : Nat} {y : G} : y ∈ signs f M ↔ f y ^ M = 1 ∨ f y ^ M = -1 := Iff.rfl

theorem two_mul_card {G : Type} [Group G] [Finite G] {H K : Subgroup G} (h : H < K) : 2 * Nat.card H ≤ Nat.card K := by
  obtain ⟨c, hc⟩ := Subgroup.card_dvd_of_le h.le
  have hlt : Nat.card H < Nat.card K := by
    have := Set.ncard_lt_ncard (SetLike.coe_ssubset_coe.2 h) (Set.toFinite _)
    rwa [← Nat.card_coe_set_eq, ← Nat.card_coe_set_eq] at this
  have : 2 ≤ c := by
    by_contra hcc
    have : c = 0 ∨ c = 1 := by omega
    rcases this with rfl | rfl <;> omega
  rw [hc]
  nlinarith

theorem four_mul_card {G : Type} [Group G] [Finite G] {H K : Subgroup G} (h : H < K) (hK : K < ⊤) : 4 * Nat.card H ≤ Nat.card G := by
  have h1 := two_mul_card h
  have h2 := two_mul_card hK
  rw [Subgroup.card_top] at h2
  omega

/-! ## Numbers with a square factor -/

theorem one_add_pow {R : Type} [CommRing R] {d : R} (hd : d * d = 0) (k : Nat) : (1 + d) ^ k = 1 + k * d := by
  induction k with
  | zero => simp
  | succ k ih => rw [pow_succ, ih]; push_cast; linear_combination (k : R) * hd

theorem totient_le {p : Nat} (hp : p.Prime) : ∀ e : Nat, Nat.totient (p * e) ≤ (p - 1) * e := by
  intro e
  induction e using Nat.strong_induction_on with
  | _ e ih =>
    by_cases hd : p ∣ e
    · obtain ⟨k, rfl⟩ := hd
      rcases Nat.eq_zero_or_pos k with rfl | hk
      · simp
      · rw [Nat.totient_mul_of_prime_of_dvd hp ⟨k, rfl⟩]
        have := ih k (by nlinarith [hp.two_le])
        calc p * Nat.totient (p * k) ≤ p * ((p - 1) * k) := Nat.mul_le_mul_left _ this
          _ = (p - 1) * (p * k) := by ring
    · rw [Nat.totient_mul_of_prime_of_not_dvd hp hd]
      exact Nat.mul_le_mul_left _ (Nat.totient_le e)

/-- The units with `x ^ (n - 1) = 1`. -/
def fermat (n : Nat) : Subgroup (ZMod n)ˣ := (powMonoidHom (n - 1)).ker

theorem card_fermat_square {n p : Nat} [NeZero n] (hp : p.Prime) (hsq : p * p ∣ n) : p * Nat.card (fermat n) ≤ Nat.totient n := by
  obtain ⟨e, he⟩ := hsq
  have hn0 : n ≠ 0 := NeZero.ne n
  have he0 : 0 < e := by rcases Nat.eq_zero_or_pos e with rfl | h; · simp at he; omega
                         · exact h
  have hp0 := hp.pos
  have hcc : ((p * e : Nat) : ZMod n) * ((p * e : Nat) : ZMod n) = 0 := by
    rw [← Nat.cast_mul, ZMod.natCast_eq_zero_iff]
    exact ⟨e, by rw [he]; ring⟩
  have hn1 : ((n - 1 : Nat) : ZMod n) = -1 := by
    rw [Nat.cast_sub (by omega), Nat.cast_one, ZMod.natCast_self, zero_sub]
  let c : ZMod n := ((p * e : Nat) : ZMod n)
  have htt : ∀ t : Nat, ((t : ZMod n) * c) * ((t : ZMod n) * c) = 0 := fun t => by
    have : ((t : ZMod n) * c) * ((t : ZMod n) * c) = t * t * (c * c) := by ring
    rw [this, hcc, mul_zero]
  let z : Fin p → (ZMod n)ˣ := fun t => ⟨1 + (t : Nat) * c, 1 - (t : Nat) * c, by linear_combination - htt t, by linear_combination - htt t⟩
  have hz : ∀ t, z t ^ (n - 1) = (z t)⁻¹ := fun t => by
    rw [eq_inv_iff_mul_eq_one, ← pow_succ, Nat.sub_add_cancel (by omega)]
    ext
    show (1 + (t : Nat) * c) ^ n = 1
    rw [one_add_pow (htt t), ZMod.natCast_self, zero_mul, add_zero]
  have hinj : Function.Injective (fun x : Fin p × fermat n => z x.1 * (x.2 : (ZMod n)ˣ)) := by
    rintro ⟨t, k, hk⟩ ⟨u, l, hl⟩ h
    simp only at h
    have h' := congrArg (· ^ (n - 1)) h
    simp only [mul_pow] at h'
    have hk' : k ^ (n - 1) = 1 := hk
    have hl' : l ^ (n - 1) = 1 := hl
    rw [hk', hl', mul_one, mul_one, hz, hz, inv_inj] at h'
    have h2 : (1 : ZMod n) + (t : Nat) * c = 1 + (u : Nat) * c := congrArg Units.val h'
    have h3 : (((t : Nat) * (p * e) : Nat) : ZMod n) = (((u : Nat) * (p * e) : Nat) : ZMod n) := by
      rw [Nat.cast_mul (t : Nat), Nat.cast_mul (u : Nat)]; exact add_left_cancel h2
    rw [ZMod.natCast_eq_natCast_iff'] at h3
    have hpe : 0 < p * e := Nat.mul_pos hp0 he0
    have hlt : ∀ t : Fin p, (t : Nat) * (p * e) < n := fun t => by
      rw [he, mul_assoc]; exact Nat.mul_lt_mul_of_pos_right t.2 hpe
    rw [Nat.mod_eq_of_lt (hlt t), Nat.mod_eq_of_lt (hlt u)] at h3
    have h4 : t = u := Fin.ext (Nat.eq_of_mul_eq_mul_right hpe h3)
    subst h4
    have h5 : k = l := mul_left_cancel h
    subst h5
    rfl
  have := Nat.card_le_card_of_injective _ hinj
  rw [Nat.card_prod, Nat.card_fin, Nat.card_eq_fintype_card (α := (ZMod n)ˣ), ZMod.card_units_eq_totient] at this
  exact this

theorem four_fermat_square {n p : Nat} [NeZero n] (hp : p.Prime) (hp2 : p ≠ 2) (hsq : p * p ∣ n) : 4 * Nat.card (fermat n) ≤ n - 1 := by
  have h1 := card_fermat_square hp hsq
  obtain ⟨e, he⟩ := hsq
  have he0 : 0 < e := by
    rcases Nat.eq_zero_or_pos e with rfl | h
    · exact absurd (by simpa using he) (NeZero.ne n)
    · exact h
  have h2 := totient_le hp (p * e)
  rw [← mul_assoc, ← he] at h2
  have hp3 : 3 ≤ p := by have := hp.two_le; omega
  have h3 : p * Nat.card (fermat n) ≤ p * ((p - 1) * e) := by
    calc _ ≤ (p - 1) * (p * e) := h1.trans h2
      _ = _ := by ring
  have h4 := Nat.le_of_mul_le_mul_left h3 hp.pos
  obtain ⟨q, rfl⟩ : ∃ q, p = q + 3 := ⟨p - 3, by omega⟩
  have h5 : 4 * ((q + 3 - 1) * e) + 1 ≤ n := by
    rw [he, show q + 3 - 1 = q + 2 by omega]
    nlinarith
  omega

/-! ## Numbers with coprime factors -/

/-- An element that is `x` on one side and 1 on the other one. -/
theorem exists_left {R A B : Type} [CommRing R] [CommRing A] [CommRing B] (e : R ≃+* A × B) (x : Rˣ) :
    ∃ y : Rˣ, e y = ((e x).1, 1) := by
  let f : Rˣ ≃* (A × B)ˣ := Units.mapEquiv e.toMulEquiv
  let w : (A × B)ˣ := MulEquiv.prodUnits.symm ((MulEquiv.prodUnits (f x)).1, 1)
  refine ⟨f.symm w, ?_⟩
  have : (f (f.symm w) : A × B) = w := by rw [f.apply_symm_apply]
  exact this

theorem exists_right {R A B : Type} [CommRing R] [CommRing A] [CommRing B] (e : R ≃+* A × B) (b : Bˣ) :
    ∃ y : Rˣ, e y = (1, (b : B)) := by
  let f : Rˣ ≃* (A × B)ˣ := Units.mapEquiv e.toMulEquiv
  let w : (A × B)ˣ := MulEquiv.prodUnits.symm (1, b)
  refine ⟨f.symm w, ?_⟩
  have : (f (f.symm w) : A × B) = w := by rw [f.apply_symm_apply]
  exact this

/-- The two sides of a unit. -/
def sideA {R A B : Type} [CommRing R] [CommRing A] [CommRing B] (e : R ≃+* A × B) : Rˣ →* A :=
  ((RingHom.fst A B).comp e.toRingHom).toMonoidHom.comp (Units.coeHom R)
def sideB {R A B : Type} [CommRing R] [CommRing A] [CommRing B] (e : R ≃+* A × B) : Rˣ →* B :=
  ((RingHom.snd A B).comp e.toRingHom).toMonoidHom.comp (Units.coeHom R)

theorem sideA_apply {R A B : Type} [CommRing R] [CommRing A] [CommRing B] (e : R ≃+* A × B) (y : Rˣ) : sideA e y = (e y).1 := rfl
theorem sideB_apply {R A B : Type} [CommRing R] [CommRing A] [CommRing B] (e : R ≃+* A × B) (y : Rˣ) : sideB e y = (e y).2 := rfl

theorem signs_lt {R A B : Type} [CommRing R] [CommRing A] [CommRing B] (e : R ≃+* A × B) (hA : (1 : A) ≠ -1) (hB : (1 : B) ≠ -1) {M : Nat}
    (h : ∃ x : Rˣ, (x : R) ^ M = -1) : signs (Units.coeHom R) M < signs (sideA e) M ⊓ signs (sideB e) M := by
  obtain ⟨x, hx⟩ := h
  have hx' : (e x) ^ M = -1 := by rw [← map_pow, hx, map_neg, map_one]
  have hx1 : (e x).1 ^ M = -1 := by rw [← Prod.pow_fst, hx', Prod.fst_neg, Prod.fst_one]
  obtain ⟨y, hy⟩ := exists_left e x
  rw [SetLike.lt_iff_le_and_exists]
  refine ⟨fun w hw => ?_, y, ?_, ?_⟩
  · have hw' : (w : R) ^ M = 1 ∨ (w : R) ^ M = -1 := hw
    rw [Subgroup.mem_inf, mem_signs, mem_signs, sideA_apply, sideB_apply, ← Prod.pow_fst, ← Prod.pow_snd, ← map_pow]
    rcases hw' with h | h <;> simp [h]
  · rw [Subgroup.mem_inf, mem_signs, mem_signs, sideA_apply, sideB_apply, hy]
    exact ⟨Or.inr hx1, Or.inl (one_pow _)⟩
  · intro hy'
    have hy'' : (y : R) ^ M = 1 ∨ (y : R) ^ M = -1 := hy'
    have hym : (e y) ^ M = (-1, 1) := by rw [hy, Prod.pow_def]; simp only [hx1, one_pow]
    rw [← map_pow] at hym
    rcases hy'' with h | h
    · rw [h, map_one] at hym
      exact hA (congrArg Prod.fst hym)
    · rw [h, map_neg, map_one] at hym
      exact hB (congrArg Prod.snd hym).symm

/-- Three coprime parts. -/
theorem four_signs_three {R A B C S : Type} [CommRing R] [CommRing A] [CommRing B] [CommRing C] [CommRing S] [Finite Rˣ] (e : R ≃+* A × S)
    (d : S ≃+* B × C) (hA : (1 : A) ≠ -1) (hB : (1 : B) ≠ -1) (hC : (1 : C) ≠ -1) {M : Nat} (h : ∃ x : Rˣ, (x : R) ^ M = -1) :
    4 * Nat.card (signs (Units.coeHom R) M) ≤ Nat.card Rˣ := by
  have hS : (1 : S) ≠ -1 := fun hs => by
    have := congrArg d hs
    rw [map_neg, map_one] at this
    exact hB (congrArg Prod.fst this)
  refine four_mul_card (signs_lt e hA hS h) ?_
  rw [lt_top_iff_ne_top]
  intro htop
  obtain ⟨x, hx⟩ := h
  let xs : Sˣ := Units.map ((RingHom.snd A S).comp e.toRingHom).toMonoidHom x
  have hxs : (xs : S) ^ M = -1 := by
    show (e x).2 ^ M = -1
    rw [← Prod.pow_snd, ← map_pow, hx, map_neg, map_one, Prod.snd_neg, Prod.snd_one]
  have h2 := signs_lt d hB hC ⟨xs, hxs⟩
  obtain ⟨-, w, w1, w2⟩ := SetLike.lt_iff_le_and_exists.1 h2
  obtain ⟨y, hy⟩ := exists_right e w
  have hy' : y ∈ signs (sideA e) M ⊓ signs (sideB e) M := by rw [htop]; trivial
  have hy2 := (Subgroup.mem_inf.1 hy').2
  rw [mem_signs, sideB_apply, hy] at hy2
  exact w2 hy2

/-- Two primes. -/
theorem four_signs_two {R : Type} [CommRing R] [Finite Rˣ] {p q : Nat} (hp : p.Prime) (hq : q.Prime) (hp2 : p ≠ 2) (hpq : p < q)
    (e : R ≃+* ZMod p × ZMod q) {M : Nat} (hM : 2 * M ∣ p * q - 1) (h : ∃ x : Rˣ, (x : R) ^ M = -1) :
    4 * Nat.card (signs (Units.coeHom R) M) ≤ Nat.card Rˣ := by
  have hp3 : 2 < p := by have := hp.two_le; omega
  have : Fact (2 < p) := ⟨hp3⟩
  have : Fact (2 < q) := ⟨by omega⟩
  have : Fact q.Prime := ⟨hq⟩
  refine four_mul_card (signs_lt e (ZMod.neg_one_ne_one).symm (ZMod.neg_one_ne_one).symm h) ?_
  rw [lt_top_iff_ne_top]
  intro htop
  obtain ⟨g, hg⟩ := IsCyclic.exists_generator (α := (ZMod q)ˣ)
  obtain ⟨y, hy⟩ := exists_right e g
  have hy' : y ∈ signs (sideA e) M ⊓ signs (sideB e) M := by rw [htop]; trivial
  have hy2 := (Subgroup.mem_inf.1 hy').2
  rw [mem_signs, sideB_apply, hy] at hy2
  have hg2 : (g : ZMod q) ^ (2 * M) = 1 := by
    rw [mul_comm, pow_mul]
    rcases hy2 with h | h
    · simp only at h; rw [h, one_pow]
    · simp only at h; rw [h]; ring
  have hg3 : g ^ (p * q - 1) = 1 := by
    obtain ⟨k, hk⟩ := hM
    rw [hk]
    ext
    rw [Units.val_pow_eq_pow_val, pow_mul, hg2, one_pow, Units.val_one]
  have ho : orderOf g = q - 1 := by
    rw [orderOf_eq_card_of_forall_mem_zpowers hg, Nat.card_eq_fintype_card, ZMod.card_units_eq_totient, Nat.totient_prime hq]
  have hdvd : q - 1 ∣ p * q - 1 := by rw [← ho]; exact orderOf_dvd_of_pow_eq_one hg3
  have hsplit : p * q - 1 = p * (q - 1) + (p - 1) := by
    obtain ⟨r, rfl⟩ : ∃ r, q = r + 1 := ⟨q - 1, by omega⟩
    rw [Nat.add_sub_cancel, Nat.mul_add, mul_one]
    omega
  rw [hsplit, Nat.dvd_add_right (Dvd.intro_left p rfl)] at hdvd
  have := Nat.le_of_dvd (by omega) hdvd
  omega

/-- The last place where -1 appears. -/
theorem exists_last {P : Nat → Prop} {s : Nat} (hs : 0 < s) (h0 : P 0) : ∃ j < s, P j ∧ ∀ i, j < i → i < s → ¬ P i := by
  induction s with
  | zero => omega
  | succ s ih =>
    by_cases hP : P s
    · exact ⟨s, by omega, hP, fun i h1 h2 => by omega⟩
    · rcases Nat.eq_zero_or_pos s with rfl | h
      · exact absurd h0 hP
      · obtain ⟨j, h1, h2, h3⟩ := ih h
        refine ⟨j, by omega, h2, fun i h4 h5 => ?_⟩
        rcases Nat.lt_or_ge i s with h6 | h6
        · exact h3 i h4 h6
        · have : i = s := by omega
          rw [this]; exact hP

/-- An odd composite number: a subgroup with at most a quarter of the numbers contains all the bases for which it passes. -/
theorem exists_liar_group {n : Nat} (hn1 : 1 < n) (hodd : n % 2 = 1) (hc : ¬ n.Prime) :
    ∃ H : Subgroup (ZMod n)ˣ, 4 * Nat.card H ≤ n - 1 ∧ ∀ a, Strong n a → ∃ y ∈ H, (y : ZMod n) = a := by
  have : NeZero n := ⟨by omega⟩
  obtain ⟨s, m, hm, hsm⟩ := Nat.exists_eq_two_pow_mul_odd (n := n - 1) (by omega)
  have hm' : m % 2 = 1 := Nat.odd_iff.1 hm
  have hs : 0 < s := by
    rcases Nat.eq_zero_or_pos s with rfl | h
    · rw [pow_zero, one_mul] at hsm; omega
    · exact h
  have hm0 : m ≠ 0 := by omega
  obtain ⟨j, hj, ⟨x, hx⟩, hlast⟩ := exists_last (P := fun i => ∃ x : (ZMod n)ˣ, (x : ZMod n) ^ (2 ^ i * m) = -1) hs
    ⟨-1, by rw [pow_zero, one_mul, Units.val_neg, Units.val_one, hm.neg_one_pow]⟩
  have hG : Nat.card (ZMod n)ˣ ≤ n - 1 := by
    rw [Nat.card_eq_fintype_card, ZMod.card_units_eq_totient]
    have := Nat.totient_lt n hn1
    omega
  have hdvd : 2 * (2 ^ j * m) ∣ n - 1 := by
    rw [hsm, ← mul_assoc, ← pow_succ']
    exact Nat.mul_dvd_mul_right (pow_dvd_pow _ (by omega)) _
  have hmem : ∀ a, Strong n a → ∃ y ∈ signs (Units.coeHom (ZMod n)) (2 ^ j * m), (y : ZMod n) = a := by
    intro a ha
    rw [strong_iff hsm hm', mod_eq_one_iff hn1] at ha
    simp only [mod_eq_pred_iff hn1, Nat.cast_pow] at ha
    rcases ha with h | ⟨r, h1, h2⟩
    · obtain ⟨y, hy⟩ := (isUnit_pow_iff hm0).1 (h ▸ isUnit_one : IsUnit ((a : ZMod n) ^ m))
      refine ⟨y, Or.inl ?_, hy⟩
      show (y : ZMod n) ^ _ = 1
      rw [hy, mul_comm, pow_mul, h, one_pow]
    · obtain ⟨y, hy⟩ := (isUnit_pow_iff (Nat.mul_ne_zero (by positivity) hm0)).1 (h2 ▸ isUnit_one.neg : IsUnit ((a : ZMod n) ^ (2 ^ r * m)))
      refine ⟨y, ?_, hy⟩
      have hr : r ≤ j := by
        by_contra hr
        exact hlast r (by omega) h1 ⟨y, by rw [hy]; exact h2⟩
      show (y : ZMod n) ^ _ = 1 ∨ (y : ZMod n) ^ _ = -1
      rw [hy]
      obtain ⟨k, rfl⟩ := Nat.exists_eq_add_of_le hr
      have : (a : ZMod n) ^ (2 ^ (r + k) * m) = (-1) ^ (2 ^ k) := by
        rw [← h2, ← pow_mul]; congr 1; rw [pow_add]; ring
      rw [this]
      exact neg_one_pow_eq_or _ _
  by_cases hsq : Squarefree n
  · refine ⟨signs (Units.coeHom (ZMod n)) (2 ^ j * m), ?_, hmem⟩
    refine le_trans ?_ hG
    -- the parts of the number
    have key : ∀ u v : Nat, n = u * v → Nat.Coprime u v := fun u v h => by
      rw [h] at hsq; exact Nat.coprime_of_squarefree_mul hsq
    have hp := Nat.minFac_prime (n := n) (by omega)
    obtain ⟨v, hv⟩ := Nat.minFac_dvd n
    generalize hpdef : n.minFac = p at *
    have hoddp : p % 2 = 1 := by
      by_contra h
      have h2 : p % 2 = 0 := by omega
      have := Nat.mul_mod p v 2
      rw [← hv, h2, zero_mul, Nat.zero_mod] at this
      omega
    have hoddv : v % 2 = 1 := by
      by_contra h
      have h2 : v % 2 = 0 := by omega
      have := Nat.mul_mod p v 2
      rw [← hv, h2, mul_zero, Nat.zero_mod] at this
      omega
    have hv1 : v ≠ 1 := fun h => hc (by rw [hv, h, mul_one]; exact hp)
    have hcop := key p v hv
    have hpv : p ≠ v := by
      rintro rfl
      exact hp.one_lt.ne' (by rw [← Nat.coprime_self]; exact hcop)
    have fact2 : ∀ u : Nat, u % 2 = 1 → u ≠ 1 → (1 : ZMod u) ≠ -1 := fun u h1 h2 => by
      have : Fact (2 < u) := ⟨by omega⟩
      exact (ZMod.neg_one_ne_one).symm
    have hp2 : p ≠ 2 := by omega
    by_cases hvp : v.Prime
    · have hpv' : p < v := by
        have : p ≤ v := by rw [← hpdef]; exact Nat.minFac_le_of_dvd hvp.two_le ⟨p, by rw [hv, mul_comm]⟩
        omega
      have e : ZMod n ≃+* ZMod p × ZMod v := by
        rw [hv]; exact ZMod.chineseRemainder hcop
      exact four_signs_two hp hvp hp2 hpv' e (by rw [← hv]; exact hdvd) ⟨x, hx⟩
    · have hq := Nat.minFac_prime hv1
      obtain ⟨w, hw⟩ := Nat.minFac_dvd v
      generalize hqdef : v.minFac = q at *
      have hoddq : q % 2 = 1 := by
        by_contra h
        have h2 : q % 2 = 0 := by omega
        have := Nat.mul_mod q w 2
        rw [← hw, h2, zero_mul, Nat.zero_mod] at this
        omega
      have hoddw : w % 2 = 1 := by
        by_contra h
        have h2 : w % 2 = 0 := by omega
        have := Nat.mul_mod q w 2
        rw [← hw, h2, mul_zero, Nat.zero_mod] at this
        omega
      have hw1 : w ≠ 1 := fun h => hvp (by rw [hw, h, mul_one]; exact hq)
      have hcop2 : Nat.Coprime q w := by
        have : Squarefree (q * w) := by
          rw [← hw]; exact hsq.squarefree_of_dvd ⟨p, by rw [hv, mul_comm]⟩
        exact Nat.coprime_of_squarefree_mul this
      have e : ZMod n ≃+* ZMod p × ZMod v := by
        rw [hv]; exact ZMod.chineseRemainder hcop
      have d : ZMod v ≃+* ZMod q × ZMod w := by
        rw [hw]; exact ZMod.chineseRemainder hcop2
      exact four_signs_three e d (fact2 p hoddp (by have := hp.one_lt; omega)) (fact2 q hoddq (by have := hq.one_lt; omega)) (fact2 w hoddw hw1) ⟨x, hx⟩
  · rw [Nat.squarefree_iff_prime_squarefree] at hsq
    push Not at hsq
    obtain ⟨p, hp, hpp⟩ := hsq
    refine ⟨fermat n, four_fermat_square hp ?_ hpp, fun a ha => ?_⟩
    · rintro rfl
      obtain ⟨k, hk⟩ := hpp
      omega
    · obtain ⟨y, hy, h⟩ := hmem a ha
      refine ⟨y, ?_, h⟩
      show y ^ (n - 1) = 1
      have hy' : (y : ZMod n) ^ (2 ^ j * m) = 1 ∨ (y : ZMod n) ^ (2 ^ j * m) = -1 := hy
      obtain ⟨k, hk⟩ := hdvd
      ext
      rw [Units.val_pow_eq_pow_val, hk, mul_comm 2, mul_assoc, pow_mul, pow_mul, Units.val_one]
      rcases hy' with h | h <;> simp [h]

open Classical in
/-- Rabin: an odd composite number passes for at most a quarter of the bases. -/
theorem strong_quarter {n : Nat} (hn1 : 1 < n) (hodd : n % 2 = 1) (hc : ¬ n.Prime) :
    4 * ((Finset.range n).filter (Strong n)).card ≤ n - 1 := by
  have : NeZero n := ⟨by omega⟩
  obtain ⟨H, h1, h2⟩ := exists_liar_group hn1 hodd hc
  refine le_trans (Nat.mul_le_mul_left 4 ?_) h1
  rw [Nat.card_eq_fintype_card, ← Finset.card_univ]
  refine le_trans (Finset.card_le_card (t := Finset.univ.image fun y : H => ((y : (ZMod n)ˣ) : ZMod n).val) fun a ha => ?_) Finset.card_image_le
  rw [Finset.mem_filter, Finset.mem_range] at ha
  obtain ⟨y, hy, h⟩ := h2 a ha.2
  rw [Finset.mem_image]
  exact ⟨⟨y, hy⟩, Finset.mem_univ _, by rw [h, ZMod.val_natCast, Nat.mod_eq_of_lt ha.1]⟩

end Verif.Bignum
