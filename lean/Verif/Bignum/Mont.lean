import Verif.Bignum.ModelExp
import Verif.Bignum.DivSpec
import Mathlib.Data.Nat.ModEq
import Mathlib.Data.Int.ModEq

/-!
# Montgomery multiplication
-/

namespace Verif.Bignum

open Verif
open Verif.Tdp (bitlen mpiSize)

/-! ## The initialisation -/

theorem newton_arith {β m0 x q1 c q2 s q3 y : Int} (h1 : m0 * x = β * q1 + c) (h2 : 2 + (β - c) = β * q2 + s) (h3 : x * s = β * q3 + y) :
    m0 * y - 1 = -((m0 * x - 1) * (m0 * x - 1)) + β * (m0 * (x * (q1 + 1 - q2) - q3)) := by
  have hy : y = x * s - β * q3 := by rw [h3]; ring
  have hs : s = 2 + β - c - β * q2 := by rw [eq_sub_iff_add_eq, add_comm, ← h2]; ring
  have hc : c = m0 * x - β * q1 := by rw [h1]; ring
  rw [hy, hs, hc]; ring

theorem newton_spec {m0 x : Nat} {k : Nat} (hk : 2 * k ≤ 64) (h : (2 : Int) ^ k ∣ (m0 : Int) * x - 1) :
    (2 : Int) ^ (2 * k) ∣ (m0 : Int) * (newton m0 x) - 1 := by
  have hc := Nat.mod_lt (m0 * x) (show 0 < W64 by decide)
  have h1 : ((m0 : Int)) * x = W64 * ((m0 * x / W64 : Nat) : Int) + ((m0 * x % W64 : Nat) : Int) := by
    exact_mod_cast (Nat.div_add_mod (m0 * x) W64).symm
  generalize hcc : m0 * x % W64 = c at *
  have h2 : (2 : Int) + ((W64 : Int) - (c : Int)) = W64 * (((2 + (W64 - c)) / W64 : Nat) : Int) + (((2 + (W64 - c)) % W64 : Nat) : Int) := by
    omega
  have h3 : (x : Int) * (((2 + (W64 - c)) % W64 : Nat) : Int) = W64 * ((x * ((2 + (W64 - c)) % W64) / W64 : Nat) : Int) + ((newton m0 x : Nat) : Int) := by
    unfold newton
    rw [hcc]
    exact_mod_cast (Nat.div_add_mod (x * ((2 + (W64 - c)) % W64)) W64).symm
  rw [newton_arith h1 h2 h3]
  refine Int.dvd_add ?_ ?_
  · rw [Int.dvd_neg, two_mul, pow_add]
    exact mul_dvd_mul h h
  · apply Dvd.dvd.mul_right
    have : (W64 : Int) = 2 ^ 64 := by norm_num
    rw [this]
    exact pow_dvd_pow 2 hk

theorem newton_lt (m0 x : Nat) : newton m0 x < W64 := Nat.mod_lt _ (by decide)

/-- `mpi_montg_init` computes the negative inverse of an odd limb. -/
theorem montgInit_spec {m0 : Nat} (hodd : m0 % 2 = 1) : (m0 * montgInit m0 + 1) % W64 = 0 ∧ montgInit m0 < W64 := by
  refine ⟨?_, Nat.mod_lt _ (by decide)⟩
  unfold montgInit
  simp only
  obtain ⟨x, hx⟩ : ∃ x, (m0 + ((((m0 + 2) % W64) &&& 4) <<< 1)) % W64 = x := ⟨_, rfl⟩
  rw [hx]
  have h0 : (2 : Int) ^ 4 ∣ (m0 : Int) * x - 1 := by
    have e : ((m0 + 2) % W64) &&& 4 = if (m0 + 2) / 4 % 2 = 1 then 4 else 0 := by
      have := Nat.and_two_pow ((m0 + 2) % W64) 2
      rw [show (2 : Nat) ^ 2 = 4 by decide] at this
      rw [this, Nat.testBit_eq_decide_div_mod_eq]
      have h4 : (m0 + 2) % W64 / 2 ^ 2 % 2 = (m0 + 2) / 4 % 2 := by omega
      rw [h4]
      by_cases hb : (m0 + 2) / 4 % 2 = 1 <;> simp [hb]
    rw [e] at hx
    have hx16 : x % 16 = (m0 + (if (m0 + 2) / 4 % 2 = 1 then 8 else 0)) % 16 := by
      rw [← hx]
      split <;> (rw [Nat.shiftLeft_eq]; omega)
    have hm : (m0 * x) % 16 = 1 := by
      rw [Nat.mul_mod, hx16]
      have hr : m0 % 16 = 1 ∨ m0 % 16 = 3 ∨ m0 % 16 = 5 ∨ m0 % 16 = 7 ∨ m0 % 16 = 9 ∨ m0 % 16 = 11 ∨ m0 % 16 = 13 ∨ m0 % 16 = 15 := by omega
      have hs : (m0 + 2) / 4 % 2 = (m0 % 16 + 2) / 4 % 2 := by omega
      rw [hs, Nat.add_mod]
      rcases hr with h | h | h | h | h | h | h | h <;> rw [h] <;> decide
    have hd := Nat.div_add_mod (m0 * x) 16
    rw [hm] at hd
    refine ⟨((m0 * x / 16 : Nat) : Int), ?_⟩
    have : ((m0 : Int)) * x = 16 * ((m0 * x / 16 : Nat) : Int) + 1 := by exact_mod_cast hd.symm
    rw [this]; norm_num
  have h1 := newton_spec (by decide) h0
  have h2 := newton_spec (by decide) h1
  have h3 := newton_spec (by decide) h2
  have h4 := newton_spec (by decide) h3
  have hlt := newton_lt m0 (newton m0 (newton m0 (newton m0 x)))
  generalize newton m0 (newton m0 (newton m0 (newton m0 x))) = y at h4 hlt
  have hy0 : y ≠ 0 := by
    rintro rfl
    rw [Int.natCast_zero, Int.mul_zero] at h4
    exact absurd h4 (by decide)
  rw [Nat.mod_eq_of_lt (show W64 - y < W64 by omega)]
  obtain ⟨z, hz⟩ := h4
  have : ((m0 * (W64 - y) + 1 : Nat) : Int) = W64 * (m0 - z) := by
    rw [Nat.cast_add, Nat.cast_mul, Nat.cast_sub (by omega)]
    have e : ((2 : Int) ^ (2 * (2 * (2 * (2 * 4))))) = W64 := by norm_num
    rw [e] at hz
    have : (m0 : Int) * y = W64 * z + 1 := by rw [← hz]; ring
    have e2 : (m0 : Int) * ((W64 : Nat) - (y : Int)) = W64 * m0 - m0 * y := by push_cast; ring
    rw [e2, this]; push_cast; ring
  omega

/-! ## One round -/

theorem mont_low {β d u0 vB vN mm : Nat} (h : (vN % β * mm + 1) % β = 0) :
    (d + u0 * vB + (d % β + u0 * (vB % β)) % β * mm % β * vN) % β = 0 := by
  have e1 : (d % β + u0 * (vB % β)) % β ≡ d + u0 * vB [MOD β] := by
    refine (Nat.mod_modEq _ _).trans ((Nat.mod_modEq _ _).add ((Nat.ModEq.refl _).mul (Nat.mod_modEq _ _)))
  have e2 : (d % β + u0 * (vB % β)) % β * mm % β * vN ≡ (d + u0 * vB) * mm * (vN % β) [MOD β] :=
    (((Nat.mod_modEq _ _).trans (e1.mul_right _)).mul (Nat.mod_modEq _ _).symm)
  have e3 : d + u0 * vB + (d % β + u0 * (vB % β)) % β * mm % β * vN ≡ (d + u0 * vB) * (vN % β * mm + 1) [MOD β] := by
    refine (e2.add_left _).trans ?_
    have : d + u0 * vB + (d + u0 * vB) * mm * (vN % β) = (d + u0 * vB) * (vN % β * mm + 1) := by ring
    rw [this]
  have e4 : (vN % β * mm + 1) ≡ 0 [MOD β] := h
  have := e3.trans (e4.mul_left _)
  rwa [Nat.mul_zero] at this

theorem mont_bound {β d u0 u1 vB vN : Nat} (h : d < vB + vN) (h0 : u0 < β) (h1 : u1 < β) : d + u0 * vB + u1 * vN < β * (vB + vN) := by
  have e0 : u0 * vB ≤ (β - 1) * vB := Nat.mul_le_mul_right _ (by omega)
  have e1 : u1 * vN ≤ (β - 1) * vN := Nat.mul_le_mul_right _ (by omega)
  obtain ⟨γ, rfl⟩ : ∃ γ, β = γ + 1 := ⟨β - 1, by omega⟩
  rw [Nat.add_sub_cancel] at e0 e1
  have : (γ + 1) * (vB + vN) = γ * vB + γ * vN + (vB + vN) := by ring
  omega

theorem getD_zero_val {p : List Nat} (hp : LOk p) : p.getD 0 0 = val p % W64 := by
  rw [limb_eq hp, pow_zero, Nat.div_one]

theorem getD_drop_val {p : List Nat} (hp : LOk p) (i : Nat) : p.getD i 0 = val (p.drop i) % W64 := by
  rw [limb_eq hp, val_div p hp]

theorem montStep_spec {a b N t : List Nat} {mm m i : Nat} (hb : LOk b) (ha : LOk a) (hN : LOk N) (ht : LOk t) (hmm : (N.getD 0 0 * mm + 1) % W64 = 0)
    (hi : i < N.length) (hia : i < a.length) (hm : m ≤ N.length) (hm1 : 1 ≤ m) (hb1 : b ≠ []) (htl : 2 * N.length + 2 ≤ t.length)
    (hBN : val (b.take m) ≤ val N) (hd : val (t.drop i) < val (b.take m) + val N) :
    ∃ t', montStep a b N mm m i t = .ok t' ∧ LOk t' ∧ t'.length = t.length ∧ val (t'.drop (i + 1)) < val (b.take m) + val N ∧
      ∃ u1, W64 * val (t'.drop (i + 1)) = val (t.drop i) + a.getD i 0 * val (b.take m) + u1 * val N := by
  have hu0 := ha.getD i
  set u0 := a.getD i 0 with hu0d
  set vB := val (b.take m) with hvB
  have hvN := val_lt hN
  set d := val (t.drop i) with hdd
  have hb0 : b.getD 0 0 = vB % W64 := by
    rw [hvB, ← getD_zero_val (hb.take m)]
    cases b with
    | nil => exact absurd rfl hb1
    | cons x r =>
      obtain ⟨m', rfl⟩ : ∃ m', m = m' + 1 := ⟨m - 1, by omega⟩
      rfl
  set u1 := (t.getD i 0 + u0 * b.getD 0 0) % W64 * mm % W64 with hu1
  have hu1l : u1 < W64 := Nat.mod_lt _ (by decide)
  have hlow : (d + u0 * vB + u1 * val N) % W64 = 0 := by
    rw [hu1, getD_drop_val ht, hb0]
    exact mont_low (by rw [← getD_zero_val hN]; exact hmm)
  have hbound := mont_bound hd hu0 hu1l
  have hpow : W64 * (vB + val N) ≤ W64 ^ (N.length + 2) := by
    rw [pow_succ, pow_succ]
    generalize W64 ^ N.length = w at *
    have h2 : W64 * (vB + val N) ≤ W64 * (2 * w) := Nat.mul_le_mul_left _ (by omega)
    omega
  have hpow2 : W64 ^ (N.length + 2) ≤ W64 ^ (t.drop i).length := Nat.pow_le_pow_right (by decide) (by rw [List.length_drop]; omega)
  have hld : (t.drop i).length = t.length - i := List.length_drop
  obtain ⟨d1, e1, e2, e3, e4⟩ := mulHlp_val hu0 (hb.take m) (ht.drop i) (by rw [List.length_take, hld]; omega) (by
    rw [← hvB, ← hdd]; omega)
  obtain ⟨d2, f1, f2, f3, f4⟩ := mulHlp_val hu1l hN e3 (by rw [e4, hld]; omega) (by rw [e4, e2, ← hvB, ← hdd]; omega)
  have hv2 : val d2 = d + u0 * vB + u1 * val N := by rw [f2, e2, ← hvB, ← hdd]; ring
  have hl2 : d2.length = t.length - i := by rw [f4, e4, hld]
  have hti : (t.take i).length = i := by rw [List.length_take]; omega
  have hlen : (t.take i ++ d2).length = t.length := by rw [List.length_append, hti, hl2]; omega
  have hdrop : (((t.take i ++ d2).set i u0).set (i + 1 + (N.length + 1)) 0).drop (i + 1) = (d2.drop 1).set (N.length + 1) 0 := by
    rw [List.drop_set, if_neg (by omega), List.drop_set, if_pos (by omega), List.drop_append, hti]
    rw [List.drop_eq_nil_of_le (by rw [hti]; omega), List.nil_append, show i + 1 - i = 1 by omega, show i + 1 + (N.length + 1) - (i + 1) = N.length + 1 by omega]
  have hv1 : W64 * val (d2.drop 1) = val d2 := by
    have h1 := val_take_drop d2 1 (by omega)
    have h2 := val_take d2 f3 1
    rw [pow_one] at h1 h2
    rw [hv2, hlow] at h2
    rw [h2, Nat.zero_add] at h1
    exact h1.symm
  have hsmall : val (d2.drop 1) < vB + val N := by
    rw [hv2] at hv1
    generalize vB + val N = s at *
    generalize val (d2.drop 1) = y at *
    omega
  have hsmall' : val (d2.drop 1) < W64 ^ (N.length + 1) := by
    rw [pow_succ]
    generalize W64 ^ N.length = w at *
    omega
  have hset : val ((d2.drop 1).set (N.length + 1) 0) = val (d2.drop 1) := by
    have h := val_set (p := d2.drop 1) (k := N.length + 1) (by rw [List.length_drop]; omega) 0
    rw [limb_eq (f3.drop 1), Nat.div_eq_of_lt hsmall'] at h
    simpa using h
  refine ⟨((t.take i ++ d2).set i u0).set (i + 1 + (N.length + 1)) 0, ?_, ?_, ?_, ?_, u1, ?_⟩
  · unfold montStep
    simp only [limbAt_spec hia, limbAt_spec (show i < t.length by omega), limbAt_spec (List.length_pos_iff.2 hb1), Out.bind_ok]
    rw [← hu0d, ← hu1, e1]
    simp only [orUb_some, Out.bind_ok, f1]
    rw [setLimb_spec (by rw [hlen]; omega)]
    simp only [Out.bind_ok]
    rw [setLimb_spec (by rw [List.length_set, hlen]; omega)]
  · exact (((ht.take i).append f3).set _ hu0).set _ (by decide)
  · rw [List.length_set, List.length_set, hlen]
  · rw [hdrop, hset]; exact hsmall
  · rw [hdrop, hset, hv1, hv2]

theorem montLoop_spec {a b N : List Nat} {mm m : Nat} (hb : LOk b) (ha : LOk a) (hN : LOk N) (hmm : (N.getD 0 0 * mm + 1) % W64 = 0)
    (hna : N.length ≤ a.length) (hm : m ≤ N.length) (hm1 : 1 ≤ m) (hb1 : b ≠ []) (hBN : val (b.take m) ≤ val N) :
    ∀ (k i : Nat) {t : List Nat} {U : Nat}, i + k = N.length → LOk t → 2 * N.length + 2 ≤ t.length → val (t.drop i) < val (b.take m) + val N →
    W64 ^ i * val (t.drop i) = val (a.take i) * val (b.take m) + U * val N →
    ∃ t' U', montLoop a b N mm m k i t = .ok t' ∧ LOk t' ∧ t'.length = t.length ∧ val (t'.drop N.length) < val (b.take m) + val N ∧
      W64 ^ N.length * val (t'.drop N.length) = val (a.take N.length) * val (b.take m) + U' * val N := by
  intro k
  induction k with
  | zero =>
    intro i t U hi ht hl h1 h2
    have : i = N.length := by omega
    subst this
    exact ⟨t, U, rfl, ht, rfl, h1, h2⟩
  | succ k ih =>
    intro i t U hi ht hl h1 h2
    obtain ⟨t1, s1, s2, s3, s4, u1, s5⟩ := montStep_spec hb ha hN ht hmm (by omega : i < N.length) (by omega) hm hm1 hb1 hl hBN h1
    obtain ⟨t', U', r1, r2, r3, r4, r5⟩ := ih (i + 1) (t := t1) (U := U + W64 ^ i * u1) (by omega) s2 (by omega) s4 (by
      rw [pow_succ, Nat.mul_assoc, s5, val_take_succ (by omega)]
      have : W64 ^ i * (val (t.drop i) + a.getD i 0 * val (b.take m) + u1 * val N) =
        W64 ^ i * val (t.drop i) + W64 ^ i * a.getD i 0 * val (b.take m) + W64 ^ i * u1 * val N := by ring
      rw [this, h2]; ring)
    refine ⟨t', U', ?_, r2, by omega, r4, r5⟩
    unfold montLoop
    simp only [s1, Out.bind_ok, r1]

/-- `mpi_montmul` multiplies modulo `N` and divides by the power of the base. -/
theorem montmul_spec {A B N : Mpi} {mm tl : Nat} (hA : A.WF) (hB : B.WF) (hN : N.WF) (hN0 : 0 < N.mag) (hmm : (N.p.getD 0 0 * mm + 1) % W64 = 0)
    (hAn : A.mag < W64 ^ N.p.length) (hBN : B.mag ≤ N.mag) (hAl : N.p.length + 1 ≤ A.p.length) (hB1 : B.p ≠ [])
    (htl : 2 * N.p.length + 2 ≤ tl) :
    ∃ R, montmul A B N mm tl = .ok R ∧ R.WF ∧ R.neg = A.neg ∧ R.p.length = A.p.length ∧ R.mag < N.mag ∧
      W64 ^ N.p.length * R.mag ≡ A.mag * B.mag [MOD N.mag] := by
  have hNne : N.p ≠ [] := nonnil_of_mag (by omega)
  have hNl := List.length_pos_iff.2 hNne
  have hBl := List.length_pos_iff.2 hB1
  have hNlt : N.mag < W64 ^ N.p.length := val_lt hN.ok
  obtain ⟨m, hm⟩ : ∃ m, (if B.p.length < N.p.length then B.p.length else N.p.length) = m := ⟨_, rfl⟩
  have hvB : val (B.p.take m) = B.mag := by
    rw [← hm]
    by_cases h : B.p.length < N.p.length
    · rw [if_pos h, List.take_length]; rfl
    · rw [if_neg h, val_take _ hB.ok]
      exact Nat.mod_eq_of_lt (show B.mag < _ by omega)
  have hmle : m ≤ N.p.length := by rw [← hm]; split <;> omega
  have hm1 : 1 ≤ m := by rw [← hm]; split <;> omega
  have hvN : val N.p = N.mag := rfl
  have hz : val ((List.replicate tl 0).drop 0) = 0 := by rw [List.drop_zero, val_zeros]
  obtain ⟨t, U, t1, t2, t3, t4, t5⟩ := montLoop_spec hB.ok hA.ok hN.ok hmm (by omega) hmle hm1 hB1 (by rw [hvB]; exact hBN) N.p.length 0
    (t := List.replicate tl 0) (U := 0) (by omega) (LOk.zeros _) (by rw [List.length_replicate]; exact htl) (by rw [hz]; omega) (by rw [hz]; simp [val])
  rw [hvB, hvN] at t4 t5
  rw [List.length_replicate] at t3
  have hAt : val (A.p.take N.p.length) = A.mag := by
    rw [val_take _ hA.ok]; exact Nat.mod_eq_of_lt hAn
  rw [hAt] at t5
  obtain ⟨d, hd⟩ : ∃ d, val (t.drop N.p.length) = d := ⟨_, rfl⟩
  rw [hd] at t4 t5
  -- the copied number
  have hAd : val (A.p.drop (N.p.length + 1)) = 0 := by
    rw [← val_div _ hA.ok]
    apply Nat.div_eq_of_lt
    exact lt_of_lt_of_le (show A.mag < _ from hAn) (Nat.pow_le_pow_right (by decide) (by omega))
  have hlt1 : ((t.drop N.p.length).take (N.p.length + 1)).length = N.p.length + 1 := by rw [List.length_take, List.length_drop]; omega
  have hdl : d < W64 ^ (N.p.length + 1) := by
    rw [pow_succ]
    generalize W64 ^ N.p.length = w at *
    omega
  have hCv : val ((t.drop N.p.length).take (N.p.length + 1) ++ A.p.drop (N.p.length + 1)) = d := by
    rw [val_append, hAd, Nat.mul_zero, Nat.add_zero, val_take _ (t2.drop _), hd, Nat.mod_eq_of_lt hdl]
  have hCok : LOk ((t.drop N.p.length).take (N.p.length + 1) ++ A.p.drop (N.p.length + 1)) := ((t2.drop _).take _).append (hA.ok.drop _)
  have hCl : ((t.drop N.p.length).take (N.p.length + 1) ++ A.p.drop (N.p.length + 1)).length = A.p.length := by
    rw [List.length_append, hlt1, List.length_drop]; omega
  obtain ⟨C, hC⟩ : ∃ C, (t.drop N.p.length).take (N.p.length + 1) ++ A.p.drop (N.p.length + 1) = C := ⟨_, rfl⟩
  rw [hC] at hCv hCok hCl
  have hCW : Mpi.WF ⟨A.neg, C⟩ := ⟨hCok, by have := hA.len; simp only; omega⟩
  have hmod : W64 ^ N.p.length * d ≡ A.mag * B.mag [MOD N.mag] := by
    rw [t5]
    exact (Nat.modEq_zero_iff_dvd.2 (Dvd.intro_left _ rfl)).add_left _
  have hfirst : montmul A B N mm tl = montEnd A N t := by
    unfold montmul
    rw [if_neg (by omega)]
    simp only [hm, t1, Out.bind_ok]
  rw [hfirst]
  unfold montEnd
  simp only [hC]
  rw [if_neg (by omega), cmpAbs_spec hCW hN]
  have hCm : Mpi.mag ⟨A.neg, C⟩ = d := hCv
  rw [hCm]
  by_cases hge : N.mag ≤ d
  · rw [if_pos (by unfold sgn; split_ifs <;> omega)]
    obtain ⟨r, r1, r2, r3, r4⟩ := subLoop_val hN.ok hCok (c := 0) (by decide) (by rw [hCv, hvN]; omega) (by omega)
    have r1' : subHlp N.p C = some r := r1
    rw [r1']
    simp only [orUb_some, Out.bind_ok, Out.pure_eq]
    have hrm : Mpi.mag ⟨A.neg, r⟩ = val r := rfl
    rw [hCv, hvN] at r2
    refine ⟨⟨A.neg, r⟩, rfl, ⟨r3, by have := hA.len; simp only; omega⟩, rfl, by simp only; omega, by rw [hrm]; omega, ?_⟩
    rw [hrm]
    refine Nat.ModEq.trans ?_ hmod
    have : d = val r + N.mag := by omega
    rw [this, Nat.mul_add]
    exact (((Nat.modEq_zero_iff_dvd.2 (Dvd.intro_left _ rfl)).add_left _)).symm
  · rw [if_neg (by unfold sgn; split_ifs <;> omega)]
    have hsub : ∃ r, subHlp (C.take N.p.length) t = some r := by
      have h1 : val (C.take N.p.length) ≤ d := by
        rw [val_take _ hCok, hCv]; exact Nat.mod_le _ _
      have h2 : d ≤ val t := by
        rw [val_take_drop t N.p.length (by omega), hd]
        have := Nat.le_mul_of_pos_left d (Nat.pow_pos (n := N.p.length) (show 0 < W64 by decide))
        omega
      obtain ⟨r, r1, -⟩ := subLoop_val (hCok.take N.p.length) t2 (c := 0) (by decide) (by omega) (by rw [List.length_take]; omega)
      exact ⟨r, r1⟩
    obtain ⟨r, hr⟩ := hsub
    rw [hr]
    simp only [orUb_some, Out.bind_ok, Out.pure_eq]
    exact ⟨⟨A.neg, C⟩, rfl, hCW, rfl, hCl, by rw [hCm]; omega, by rw [hCm]; exact hmod⟩

/-! ## Numbers in Montgomery form -/

/-- The modulus is usable: well formed, odd, positive, with its constant and with enough memory for the temporary. -/
structure MontOk (N : Mpi) (mm tl : Nat) : Prop where
  wf : N.WF
  odd : N.mag % 2 = 1
  mm : (N.p.getD 0 0 * mm + 1) % W64 = 0
  tl : 2 * N.p.length + 2 ≤ tl

/-- `Y` is the Montgomery form of `v`. -/
structure Rep (N : Mpi) (Y : Mpi) (v : Nat) : Prop where
  wf : Y.WF
  neg : Y.neg = false
  len : N.p.length + 1 ≤ Y.p.length
  lt : Y.mag < N.mag
  rep : Y.mag ≡ v * W64 ^ N.p.length [MOD N.mag]

theorem MontOk.pos {N : Mpi} {mm tl : Nat} (h : MontOk N mm tl) : 0 < N.mag := by have := h.odd; omega

theorem MontOk.coprime {N : Mpi} {mm tl : Nat} (h : MontOk N mm tl) : Nat.Coprime N.mag (W64 ^ N.p.length) := by
  rw [W64_pow]
  apply Nat.Coprime.pow_right
  rw [Nat.coprime_iff_gcd_eq_one, Nat.gcd_comm, Nat.gcd_rec, h.odd]; rfl

theorem Rep.ne {N Y : Mpi} {v : Nat} (h : Rep N Y v) : Y.p ≠ [] := by
  intro he
  have := h.len
  rw [he, List.length_nil] at this
  omega

theorem Rep.lt_pow {N Y : Mpi} {v : Nat} (hN : N.WF) (h : Rep N Y v) : Y.mag < W64 ^ N.p.length :=
  lt_trans h.lt (val_lt hN.ok)

theorem montmul_rep {N A B : Mpi} {mm tl a b : Nat} (hM : MontOk N mm tl) (hA : Rep N A a) (hB : Rep N B b) :
    ∃ R, montmul A B N mm tl = .ok R ∧ Rep N R (a * b) ∧ R.p.length = A.p.length := by
  obtain ⟨R, r1, r2, r3, r4, r5, r6⟩ := montmul_spec hA.wf hB.wf hM.wf hM.pos hM.mm (hA.lt_pow hM.wf) hB.lt.le hA.len hB.ne hM.tl
  refine ⟨R, r1, ⟨r2, by rw [r3, hA.neg], by rw [r4]; exact hA.len, r5, ?_⟩, r4⟩
  apply Nat.ModEq.cancel_left_of_coprime (c := W64 ^ N.p.length) hM.coprime
  refine r6.trans ((hA.rep.mul hB.rep).trans ?_)
  have : a * W64 ^ N.p.length * (b * W64 ^ N.p.length) = W64 ^ N.p.length * (a * b * W64 ^ N.p.length) := by ring
  rw [this]

/-- Leaving the Montgomery form. -/
theorem montred_out {N A : Mpi} {mm tl a : Nat} (hM : MontOk N mm tl) (hA : Rep N A a) :
    ∃ R, montred A N mm tl = .ok R ∧ R.WF ∧ R.neg = false ∧ R.mag = a % N.mag ∧ R.p.length = A.p.length := by
  have h1 : Mpi.mag ⟨false, [1]⟩ = 1 := rfl
  have hp := hM.pos
  obtain ⟨R, r1, r2, r3, r4, r5, r6⟩ := montmul_spec (B := ⟨false, [1]⟩) hA.wf ⟨by unfold LOk; decide, by decide⟩ hM.wf hM.pos hM.mm (hA.lt_pow hM.wf)
    (by rw [h1]; omega) hA.len (by simp) hM.tl
  refine ⟨R, r1, r2, by rw [r3, hA.neg], ?_, r4⟩
  have h2 : R.mag ≡ a [MOD N.mag] := by
    apply Nat.ModEq.cancel_left_of_coprime (c := W64 ^ N.p.length) hM.coprime
    refine r6.trans ?_
    rw [h1, Nat.mul_one, Nat.mul_comm]
    exact hA.rep
  rw [← h2, Nat.mod_eq_of_lt r5]

/-- Entering it, with the square of the power of the base. -/
theorem montmul_in {N A RR : Mpi} {mm tl a : Nat} (hM : MontOk N mm tl) (hA : A.WF) (hAn : A.neg = false) (hAl : N.p.length + 1 ≤ A.p.length)
    (hAlt : A.mag < N.mag) (hAa : A.mag ≡ a [MOD N.mag]) (hR : RR.WF) (hR1 : RR.p ≠ []) (hRv : RR.mag = W64 ^ N.p.length * W64 ^ N.p.length % N.mag) :
    ∃ R, montmul A RR N mm tl = .ok R ∧ Rep N R a ∧ R.p.length = A.p.length := by
  have hRlt : RR.mag < N.mag := by rw [hRv]; exact Nat.mod_lt _ hM.pos
  obtain ⟨R, r1, r2, r3, r4, r5, r6⟩ := montmul_spec hA hR hM.wf hM.pos hM.mm (lt_trans hAlt (val_lt hM.wf.ok)) hRlt.le hAl hR1 hM.tl
  refine ⟨R, r1, ⟨r2, by rw [r3, hAn], by rw [r4]; exact hAl, r5, ?_⟩, r4⟩
  apply Nat.ModEq.cancel_left_of_coprime (c := W64 ^ N.p.length) hM.coprime
  refine r6.trans ?_
  rw [hRv]
  refine (hAa.mul (Nat.mod_modEq _ _)).trans ?_
  have : a * (W64 ^ N.p.length * W64 ^ N.p.length) = W64 ^ N.p.length * (a * W64 ^ N.p.length) := by ring
  rw [this]

/-- The Montgomery form of 1. -/
theorem montred_one {N X : Mpi} {mm tl : Nat} (hM : MontOk N mm tl) (hX : X.WF) (hXn : X.neg = false) (hXl : N.p.length + 1 ≤ X.p.length)
    (hXv : X.mag = W64 ^ N.p.length * W64 ^ N.p.length % N.mag) :
    ∃ R, montred X N mm tl = .ok R ∧ Rep N R 1 ∧ R.p.length = X.p.length := by
  have h1 : Mpi.mag ⟨false, [1]⟩ = 1 := rfl
  have hp := hM.pos
  have hXlt : X.mag < N.mag := by rw [hXv]; exact Nat.mod_lt _ hM.pos
  obtain ⟨R, r1, r2, r3, r4, r5, r6⟩ := montmul_spec (B := ⟨false, [1]⟩) hX ⟨by unfold LOk; decide, by decide⟩ hM.wf hM.pos hM.mm
    (lt_trans hXlt (val_lt hM.wf.ok)) (by rw [h1]; omega) hXl (by simp) hM.tl
  refine ⟨R, r1, ⟨r2, by rw [r3, hXn], by rw [r4]; exact hXl, r5, ?_⟩, r4⟩
  apply Nat.ModEq.cancel_left_of_coprime (c := W64 ^ N.p.length) hM.coprime
  refine r6.trans ?_
  rw [h1, Nat.mul_one, Nat.one_mul, hXv]
  exact Nat.mod_modEq _ _

end Verif.Bignum
