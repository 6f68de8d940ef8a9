import Verif.Relic.Props
import Verif.Tdp.Example
import Verif.Ppke.Model

/-! # C96: where scalars are not what they should be, and examples -/

namespace Verif.Relic

open Verif

variable {P : Prims}

/-! ## Negative numbers -/

theorem eval_minus_one (hP : P.Ok) : eval P (.neg (.int 1)) = .ok (nrm (P.r - 1)) := by
  have hr := hP.prime.one_lt
  simp only [eval]
  rw [zrInt_ok (by unfold isInt; norm_num), Res.bind_ok]
  unfold neg
  simp only [bnNeg_nrm, neg_nrm, val_nrm, val_order]
  rw [if_pos (by decide), show (-1 + (P.r : Int)) = P.r - 1 by ring]
  rfl

/-- C96 is false for negative numbers: `ZR(-2) - (-ZR(1))`, which means minus one, is stored as the number -1.  It is no member, it differs from
`-ZR(1)`, which means minus one too, and its bytes are those of `ZR(1)`. -/
theorem c96_subtract_false (hP : P.Ok) :
    Loose P (.sub (.int (-2)) (.neg (.int 1)))
      ∧ den P (.sub (.int (-2)) (.neg (.int 1))) = den P (.neg (.int 1))
      ∧ ∃ x y, eval P (.sub (.int (-2)) (.neg (.int 1))) = .ok x ∧ eval P (.neg (.int 1)) = .ok y
        ∧ ismember P x = false ∧ eq x y = false ∧ getBytes x = getBytes (nrm 1) := by
  have hr := hP.prime.one_lt
  have h1 : Loose P (.sub (.int (-2)) (.neg (.int 1))) := by
    simp only [Loose, isInt]; norm_num
  refine ⟨h1, ?_, nrm (-1), nrm (P.r - 1), ?_, eval_minus_one hP, ?_, ?_, rfl⟩
  · simp only [den, Option.bind_eq_bind, Option.bind_some, Option.pure_def]
    push_cast; congr 1; ring
  · have h2 := eval_minus_one hP
    rw [eval, eval, h2, zrInt_ok (by unfold isInt; norm_num), Res.bind_ok, Res.bind_ok]
    unfold sub
    simp only [neg_nrm, val_nrm, val_order]
    rw [if_pos (by simp; omega), show (-2 - ((P.r : Int) - 1) + P.r) = -1 by ring]
    rfl
  · unfold ismember
    rw [neg_nrm]; simp
  · unfold eq
    rw [cmp_nrm, compare_lt_iff_lt.2 (by omega)]
    rfl

/-- C96 is false for negative factors: `ZR(-2147483647) * (-ZR(1))` stays negative, and writing its bytes leaves the buffer. -/
theorem c96_multiply_false (hP : P.Ok) :
    Loose P (.mul (.int (-2147483647)) (.neg (.int 1)))
      ∧ ∃ x, eval P (.mul (.int (-2147483647)) (.neg (.int 1))) = .ok x ∧ ismember P x = false ∧ getBytes x = .ub := by
  have hl := hP.low
  have hl2 : (2 : Int) ^ 253 < P.r := by exact_mod_cast hl
  refine ⟨by simp only [Loose, isInt]; norm_num, nrm (-2147483647 * (P.r - 1) + P.r), ?_, ?_, ?_⟩
  · rw [eval, eval_minus_one hP, eval, zrInt_ok (by unfold isInt; norm_num), Res.bind_ok, Res.bind_ok]
    unfold mul
    simp only [neg_nrm, val_nrm, val_order]
    rw [if_pos (by simp only [decide_eq_true_eq]; omega)]
    rfl
  · unfold ismember
    rw [neg_nrm, decide_eq_true (by omega)]; simp
  · unfold getBytes nrm
    simp only [mag_digs]
    rw [if_neg]
    have : (256 : Int) ^ 32 ≤ 2147483647 * (P.r - 1) - P.r := by
      have h3 : (256 : Int) ^ 32 = 8 * 2 ^ 253 := by norm_num
      omega
    have h4 : ((256 ^ 32 : Nat) : Int) = 256 ^ 32 := by norm_num
    omega

/-- The constructor is undefined for the least `int`, and dividing it by minus one too. -/
theorem c96_least_int_false : isInt (-2 ^ 31) ∧ eval P (.int (-2 ^ 31)) = .ub ∧ intDiv (-2 ^ 31) (-1) = .ub := by
  refine ⟨by decide, ?_, by decide⟩
  rw [eval]; decide

/-- The functions on `int` compute the exact number whenever an `int` holds it. -/
theorem c96_int (g h : Int) :
    (isInt (g + h) → intAdd g h = .ok (g + h)) ∧ (isInt (g - h) → intSub g h = .ok (g - h)) ∧ (isInt (g * h) → intMul g h = .ok (g * h))
      ∧ (h ≠ 0 → isInt (g.tdiv h) → intDiv g h = .ok (g.tdiv h)) ∧ intDiv g 0 = .exc .logicError := by
  refine ⟨fun k => if_pos k, fun k => if_pos k, fun k => if_pos k, fun h0 k => ?_, rfl⟩
  unfold intDiv
  rw [if_neg h0, if_pos k]

/-! ## The order itself -/

/-- C96 is false where a hash is the order: the scalar is the order instead of zero, is no member, and dividing by it does not throw. -/
theorem c96_hash_false (hP : P.Ok) (m : Bytes) (h : beNat (P.sha (0x01 :: m)) = P.r) :
    den P (.div (.int 1) (.hash m)) = none ∧ ismember P (hashToZR P m) = false
      ∧ ∃ x, eval P (.div (.int 1) (.hash m)) = .ok x := by
  have hr := hP.prime.one_lt
  have h1 : hashToZR P m = nrm P.r := by
    unfold hashToZR inputZR order
    simp only [h, cmp_nrm]
    rw [if_neg (by simp)]
  refine ⟨?_, ?_, ?_⟩
  · simp only [den, h, Option.bind_eq_bind, Option.bind_some]
    simp
  · unfold ismember order
    rw [h1, cmp_nrm]; simp
  · simp only [eval, h1]
    rw [zrInt_ok (by unfold isInt; norm_num)]
    simp only [Res.bind_ok]
    unfold div
    rw [isZero_nrm, decide_eq_false (by omega)]
    exact ⟨_, rfl⟩

/-! ## Bitwise and -/

theorem and_digit (x y X Y : Nat) (hx : x < 2 ^ 64) (hy : y < 2 ^ 64) :
    (x + 2 ^ 64 * X) &&& (y + 2 ^ 64 * Y) = (x &&& y) + 2 ^ 64 * (X &&& Y) := by
  have hz : x &&& y < 2 ^ 64 := Nat.and_lt_two_pow x hy
  apply Nat.eq_of_testBit_eq
  intro i
  rw [Nat.testBit_and, Nat.add_comm x, Nat.add_comm y, Nat.add_comm (x &&& y), Nat.testBit_two_pow_mul_add _ hx, Nat.testBit_two_pow_mul_add _ hy,
    Nat.testBit_two_pow_mul_add _ hz]
  split <;> rw [Nat.testBit_and]

theorem mag_cons (d : UInt64) (l : List UInt64) : mag (d :: l) = d.toNat + 2 ^ 64 * mag l := by
  unfold mag; rw [List.map_cons, Nat.ofDigits_cons]

theorem mag_land (a b : List UInt64) : mag (List.zipWith (· &&& ·) a b) = mag a &&& mag b := by
  induction a generalizing b with
  | nil => simp [mag]
  | cons x a ih =>
    cases b with
    | nil => simp [mag]
    | cons y b =>
      rw [List.zipWith_cons_cons, mag_cons, mag_cons, mag_cons, ih, and_digit _ _ _ _ x.toNat_lt y.toNat_lt, UInt64.toNat_and]

/-- C96: the bitwise and of numbers that are not negative is the right number. -/
theorem c96_and (a b : Nat) : (land (nrm a) (nrm b)).val = ((a &&& b : Nat) : Int) := by
  unfold land nrm Bn.val
  simp only [mag_land, mag_digs, Bool.false_eq_true, if_false]
  rfl

/-- But it may be stored with leading zero digits: a scalar of value one differs from one, and a scalar of value zero is a divisor. -/
theorem c96_and_false (P : Prims) (x : Bn) :
    (land (nrm (2 ^ 64 + 1)) (nrm (2 ^ 65 + 1))).val = 1 ∧ eq (land (nrm (2 ^ 64 + 1)) (nrm (2 ^ 65 + 1))) (nrm 1) = false
      ∧ (land (nrm (2 ^ 64)) (nrm (2 ^ 65))).val = 0 ∧ ∃ y, div P x (land (nrm (2 ^ 64)) (nrm (2 ^ 65))) = .ok y := by
  refine ⟨c96_and (2 ^ 64 + 1) (2 ^ 65 + 1), by decide +kernel, c96_and (2 ^ 64) (2 ^ 65), ?_⟩
  unfold div
  rw [show isZero (land (nrm (2 ^ 64)) (nrm (2 ^ 65))) = false by decide +kernel]
  exact ⟨_, rfl⟩

/-! ## The scalars of the model of puncturable encryption -/

/-- C96: on numbers without leading zero digits the operators are those of `Verif/Ppke`, on which the claims about puncturable encryption rest. -/
theorem c96_agrees {G1 G2 GT : Type} (G : Ppke.Grp G1 G2 GT) (hr : G.r = P.r) (hm : ∀ x, P.mod x = x % P.r) (hc : P.cofactor = G.cofactor)
    (hs : P.sha = G.sha) (x y : Bn) (hx : Trim x) (hy : Trim y) (b out : Bytes) (n : Nat) :
    (add P x y).val = Ppke.zadd G x.val y.val ∧ (sub P x y).val = Ppke.zsub G x.val y.val ∧ (neg P x).val = Ppke.zneg G x.val
      ∧ (mul P x y).val = Ppke.zmul G x.val y.val ∧ Bn.val <$> div P x y = Ppke.zdiv G x.val y.val
      ∧ (hashToZR P b).val = Ppke.hashToZR G b ∧ (zrRandom P n).val = Ppke.randomZR G n
      ∧ (zrPrf P out).val = Ppke.pseudoRandomZR G (fun _ => out) b := by
  have hmul : ∀ x y : Bn, (mul P x y).val = Ppke.zmul G x.val y.val := by
    intro x y
    unfold mul Ppke.zmul
    simp only [neg_nrm, val_nrm, val_order, hm, hr, decide_eq_true_eq]
    split <;> rw [val_nrm]
  refine ⟨?_, ?_, ?_, hmul x y, ?_, ?_, ?_, ?_⟩
  · unfold add Ppke.zadd; rw [val_nrm, val_nrm, hm, hr]
  · unfold sub Ppke.zsub
    simp only [neg_nrm, val_nrm, val_order, hm, hr, decide_eq_true_eq]
    split <;> rw [val_nrm]
  · unfold neg Ppke.zneg
    simp only [trim_neg_iff (trim_bnNeg hx), val_bnNeg hx, val_order, hr, decide_eq_true_eq]
    split
    · rw [val_nrm]
    · rw [val_bnNeg hx]
  · unfold div Ppke.zdiv
    rw [isZero_trim hy]
    by_cases h : y.val = 0
    · simp [h]
    · simp only [h, decide_false, Bool.false_eq_true, if_false, Res.map_ok]
      rw [hmul]
      congr 2
      unfold invertZR Ppke.zinv
      simp only [neg_nrm, val_nrm, val_order, hr, hc, decide_eq_true_eq]
      split <;> rw [val_nrm]
  · unfold hashToZR Ppke.hashToZR inputZR order
    simp only [cmp_nrm, hm, hr, hs, val_nrm]
    by_cases h : (beNat (G.sha (0x01 :: b)) : Int) > P.r
    · rw [if_pos (compare_gt_iff_gt.2 h), if_pos h, val_nrm]
    · rw [if_neg (fun hc => h (compare_gt_iff_gt.1 hc)), if_neg h, val_nrm]
  · unfold zrRandom Ppke.randomZR; rw [val_nrm, val_nrm, hm, hr]
  · unfold zrPrf Ppke.pseudoRandomZR; rw [val_nrm, val_nrm, hm, hr]

/-! ## Examples -/

/-- An order of 254 bits. -/
def exR : Nat := 11025 * 2 ^ 240 + 1

theorem exR_prime : exR.Prime :=
  Tdp.prime_of_cert exR 13 254 11025 240 [3, 3, 5, 5, 7, 7] rfl (by decide +kernel) rfl
    (by intro q hq; fin_cases hq <;> norm_num) (by decide +kernel) (by decide +kernel)

/-- The parameters, with a hash function that always returns the order. -/
noncomputable def exP : Prims where
  r := exR
  mod x := x % exR
  cofactor x := (((x : ZMod exR)⁻¹).val : Int) - (if x = 2 then exR else 0)
  mxp x k := x ^ k.toNat % exR
  sha _ := beBytes 32 exR

theorem exP_ok : exP.Ok where
  prime := exR_prime
  low := by decide +kernel
  high := by decide +kernel
  mod_pos x _ := rfl
  mod_neg x _ := Int.emod_emod_of_dvd _ (dvd_refl _)
  cofactor_inv x h0 h1 := by
    have : Fact exR.Prime := ⟨exR_prime⟩
    have hx : ((x : Int) : ZMod exR) ≠ 0 := by
      rw [Ne, ZMod.intCast_zmod_eq_zero_iff_dvd]
      intro hd
      have := Int.le_of_dvd h0 hd
      have h2 : x < (exR : Int) := h1
      omega
    have h2 : ((exP.cofactor x * x : Int) : ZMod exR) = ((1 : Int) : ZMod exR) := by
      unfold exP
      simp only
      push_cast
      rw [ZMod.natCast_zmod_val]
      split <;> simp [hx]
    have h3 := (ZMod.intCast_eq_intCast_iff _ _ exR).1 h2
    have h4 : (1 : Int) % (exR : Int) = 1 := by decide +kernel
    exact Eq.trans (show _ % _ = _ % _ from h3) h4
  cofactor_abs x h0 h1 := by
    have : Fact exR.Prime := ⟨exR_prime⟩
    have : NeZero exR := ⟨exR_prime.ne_zero⟩
    have hv := ZMod.val_lt ((x : ZMod exR)⁻¹)
    have hx : ((x : Int) : ZMod exR) ≠ 0 := by
      rw [Ne, ZMod.intCast_zmod_eq_zero_iff_dvd]
      intro hd
      have := Int.le_of_dvd h0 hd
      have h2 : x < (exR : Int) := h1
      omega
    have hp : 0 < ((x : ZMod exR)⁻¹).val := by
      rw [ZMod.val_pos]; exact inv_ne_zero hx
    show -(exR : Int) < (((x : ZMod exR)⁻¹).val : Int) - (if x = 2 then exR else 0) ∧ (((x : ZMod exR)⁻¹).val : Int) - (if x = 2 then exR else 0) < exR
    split <;> push_cast <;> omega
  mxp_pos x _ k := by simp [exP]

example : Fine exP (.sub (.int 3) (.mul (.bytes [1, 0]) (.text [55, 55]))) := by
  refine ⟨⟨by decide, by decide⟩, ?_, ?_⟩
  · show beNat [1, 0] < exR; decide +kernel
  · refine ⟨by decide, ?_⟩
    show textVal [55, 55] < (exR : Int); decide +kernel

example : ∃ x, eval exP (.inv (.int 3)) = .ok x ∧ ismember exP x = true := by
  have : NeZero exR := ⟨exR_prime.ne_zero⟩
  have hne : den exP (.inv (.int 3)) = some ((3 : ZMod exR)⁻¹) := by
    simp only [den, Option.bind_eq_bind, Option.bind_some, Option.pure_def, Int.cast_ofNat]; rfl
  have hf : Fine exP (.inv (.int 3)) := by
    refine ⟨⟨by decide, by decide⟩, ?_⟩
    simp only [den]
    intro hc
    have h1 := (ZMod.intCast_zmod_eq_zero_iff_dvd 3 exR).1 (Option.some.inj hc)
    have h2 := Int.le_of_dvd (by norm_num) h1
    revert h2
    decide +kernel
  have := c96_scalars exP_ok _ hf
  rw [hne] at this
  obtain ⟨b, hb, _⟩ := this
  exact ⟨b, hb, (c96_bytes exP_ok _ hf b hb).1⟩

example : ∃ x, eval exP (.div (.int 1) (.hash [])) = .ok x := (c96_hash_false exP_ok [] (by show beNat (beBytes 32 exR) = exR; decide +kernel)).2.2

example : ∃ x, eval exP (.sub (.int (-2)) (.neg (.int 1))) = .ok x ∧ ismember exP x = false := by
  obtain ⟨_, _, x, _, hx, _, hm, _⟩ := c96_subtract_false exP_ok
  exact ⟨x, hx, hm⟩

example : Answers (fun a b => a = b) (geval exP (.exp (.elem (1 : ZMod exR)) (.sub (.int (-2)) (.neg (.int 1)))))
    (@gden exP (ZMod exR) _ (inferInstanceAs (Module (ZMod exR) (ZMod exR))) (.exp (.elem 1) (.sub (.int (-2)) (.neg (.int 1))))) :=
  @c96_group exP (ZMod exR) _ (inferInstanceAs (Module (ZMod exR) (ZMod exR))) exP_ok (.exp (.elem 1) (.sub (.int (-2)) (.neg (.int 1)))) ⟨trivial, (c96_subtract_false exP_ok).1⟩

end Verif.Relic
