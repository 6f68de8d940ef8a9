import Verif.Ppke.SpecGame
import Verif.Ppke.PropsDist

/-!
# C95: from the PRF to uniform scalars
-/

namespace Verif.Ppke.Game

open Verif Verif.Avg Verif.Oracle

set_option linter.unusedSectionVars false

variable {G1 G2 GT : Type} [AddCommGroup G1] [AddCommGroup G2] [AddCommGroup GT]

/-! ## Multiples -/

section
variable {A : Type} [AddCommGroup A] {r : Nat} [NeZero r]

theorem zsmul_ex (hA : ∀ x : A, (r : Int) • x = 0) (k : Int) (x : A) : k • x = ex (k : ZMod r) x := by
  unfold ex
  rw [← natCast_zsmul]
  apply smul_congr hA
  push_cast
  rw [ZMod.natCast_zmod_val]

theorem nsmul_ex (hA : ∀ x : A, (r : Int) • x = 0) (k : Nat) (x : A) : k • x = ex (k : ZMod r) x := by
  rw [← natCast_zsmul, zsmul_ex hA, Int.cast_natCast]

theorem ex_zsmul (z : ZMod r) (x : A) : ex z x = (z.val : Int) • x := (natCast_zsmul x z.val).symm

theorem val_cast (z : ZMod r) : (((z.val : Nat) : Int) : ZMod r) = z := by rw [Int.cast_natCast, ZMod.natCast_zmod_val]

theorem ex_ex (hA : ∀ x : A, (r : Int) • x = 0) (a b : ZMod r) (x : A) : ex a (ex b x) = ex (a * b) x := by
  rw [ex_zsmul a, ex_zsmul b, ← mul_zsmul, zsmul_ex hA]
  push_cast
  rw [ZMod.natCast_zmod_val, ZMod.natCast_zmod_val]

theorem ex_add (hA : ∀ x : A, (r : Int) • x = 0) (a b : ZMod r) (x : A) : ex a x + ex b x = ex (a + b) x := by
  rw [ex_zsmul a, ex_zsmul b, ← add_zsmul, zsmul_ex hA]
  push_cast
  rw [ZMod.natCast_zmod_val, ZMod.natCast_zmod_val]

theorem ex_sub (hA : ∀ x : A, (r : Int) • x = 0) (a b : ZMod r) (x : A) : ex a x - ex b x = ex (a - b) x := by
  rw [ex_zsmul a, ex_zsmul b, ← sub_smul, zsmul_ex hA]
  push_cast
  rw [ZMod.natCast_zmod_val, ZMod.natCast_zmod_val]

theorem ex_dist (a : ZMod r) (x y : A) : ex a (x + y) = ex a x + ex a y := nsmul_add _ _ _

end

/-- A uniform number below the order and a uniform scalar. -/
theorem E_scalar {r : Nat} [NeZero r] (f : ZMod r → ℚ) : E (fun y : Fin r => f (((y : Nat) : Int) : ZMod r)) = E f := by
  let e : Fin r ≃ ZMod r :=
    { toFun := fun y => (y.val : ZMod r)
      invFun := fun z => ⟨z.val, ZMod.val_lt z⟩
      left_inv := fun y => Fin.ext (ZMod.val_natCast_of_lt y.isLt)
      right_inv := fun z => ZMod.natCast_zmod_val z }
  rw [← E_equiv e f]
  refine congrArg E (funext fun y => congrArg f ?_)
  exact Int.cast_natCast _

/-! ## The answers of the code -/

section
variable (G : Grp G1 G2 GT)

theorem shareBytes_eq (s : Share G2) : shareBytes G s = shareStr G s.sk1 s.sk2 s.sk3 s.sk4 := by
  unfold shareBytes shareStr write2
  by_cases h1 : (G.enc2 s.sk1).length = 65 <;> by_cases h2 : (G.enc2 s.sk2).length = 65 <;> by_cases h3 : (G.enc2 s.sk3).length = 65 <;>
    simp only [h1, h2, h3, if_true, if_false, and_true, and_false] <;> rfl

theorem ctBytes_eq (c : Ct G1) : ctBytes G c = ctStr G c.ct1 c.ct2 c.ct3 c.tag := by
  unfold ctBytes ctStr write1
  by_cases h1 : (G.enc1 c.ct2).length = 33 <;> by_cases h2 : (G.enc1 c.ct3).length = 33 <;>
    simp only [h1, h2, if_true, if_false, and_true, and_false] <;> rfl

variable {G} [NeZero G.r]

theorem incPuncture_eq (hG : G.Ok) (asserts : Bool) (prf : Bytes → Bytes) (d : Nat) (t : Bytes) {l : ZMod G.r}
    (hl : l = if d = 0 then -((pseudoRandomZR G prf lblAlpha : Int) : ZMod G.r) else ((pseudoRandomZR G prf (lblL d) : Int) : ZMod G.r)) :
    incPuncture G asserts prf (d + 1) t = onPuncture G asserts ((pseudoRandomZR G prf lblBeta : Int) : ZMod G.r) ((pseudoRandomZR G prf lblRy : Int) : ZMod G.r)
      (((pseudoRandomZR G prf (lblL (d + 1)) : Int) : ZMod G.r) - l) ((pseudoRandomZR G prf (lblR1 (d + 1)) : Int) : ZMod G.r) t := by
  unfold incPuncture skShareGen onPuncture
  have hd : (d + 1 == 0) = false := by simp
  rw [hd, Bool.false_or]
  by_cases h : (asserts && t == nullTag) = true
  · rw [if_pos h, if_pos h]; rfl
  · rw [if_neg h, if_neg h]
    show shareBytes G _ = _
    rw [shareBytes_eq, shareS, line]
    simp only
    have hp : ((prevL G prf (paramgen G prf) (d + 1) : Int) : ZMod G.r) = l := by
      rw [hl, prevL]
      by_cases h0 : d = 0
      · rw [if_neg (by omega), if_pos h0, zneg_cast]; rfl
      · rw [if_pos (by omega), if_neg h0, Nat.add_sub_cancel]
    rw [zsmul_ex hG.tor2, zsmul_ex hG.tor2, zsmul_ex hG.tor2, ex_ex hG.tor2, zmul_cast, zadd_cast, zsub_cast, hp, zadd_cast, zmul_cast, hash_cast]
    rfl

theorem initialKeyshare_eq (hG : G.Ok) (prf : Bytes → Bytes) {d : Nat} (hd : d ≠ 0) :
    initialKeyshare G prf d = shareS G ((pseudoRandomZR G prf lblBeta : Int) : ZMod G.r) ((pseudoRandomZR G prf lblRy : Int) : ZMod G.r)
      (-((pseudoRandomZR G prf (lblL d) : Int) : ZMod G.r)) ((pseudoRandomZR G prf (lblRho d) : Int) : ZMod G.r) nullTag := by
  unfold initialKeyshare sk0Gen
  rw [if_neg hd, shareBytes_eq, shareS, line]
  simp only
  rw [zsmul_ex hG.tor2, zsmul_ex hG.tor2, zsmul_ex hG.tor2, ex_ex hG.tor2, zmul_cast, zsub_cast, zadd_cast, zmul_cast, hash_cast]
  rw [sub_eq_neg_add]
  rfl

theorem encrypt_eq (hG : G.Ok) (prf : Bytes → Bytes) (x m : Nat) {t : Bytes} (ht : t.length = 16) :
    Ppke.encrypt G prf x m t = onEncrypt G ((pseudoRandomZR G prf lblAlpha : Int) : ZMod G.r) ((pseudoRandomZR G prf lblBeta : Int) : ZMod G.r)
      ((pseudoRandomZR G prf lblRy : Int) : ZMod G.r) x m t := by
  unfold Ppke.encrypt encryptSp blindSp onEncrypt
  by_cases h : t = nullTag
  · simp only [if_pos h]; rfl
  · simp only [if_neg h, Res.bind_ok, mask_ok hG ht, gtArray_eq hG, powGT_eq]
    show ctBytes G _ = _
    rw [ctBytes_eq, ctS, line, pad]
    simp only
    rw [zsmul_ex hG.torT, zmul_cast, zmul_cast, randomZR_cast, zsmul_ex hG.tor1, zsmul_ex hG.tor1, ex_ex hG.tor1, randomZR_cast, zadd_cast, zmul_cast, hash_cast,
      nsmul_ex hG.tor1]
    rfl

end

/-! ## The game and the attack on the PRF -/

section
variable {G : Grp G1 G2 GT} [NeZero G.r] (asserts : Bool) (Q : Nat) (ts : Tag) (b : Bool)

theorem run_onPrf (hG : G.Ok) (prf : Bytes → Bytes) (A : Adv) : ∀ (d : Nat) (p : Bool) (l rho : ZMod G.r),
    (l = if d = 0 then -((pseudoRandomZR G prf lblAlpha : Int) : ZMod G.r) else ((pseudoRandomZR G prf (lblL d) : Int) : ZMod G.r)) →
    (p = true → d ≠ 0 ∧ rho = ((pseudoRandomZR G prf (lblRho d) : Int) : ZMod G.r)) →
    playR (pseudoRandomZR G prf) (onPrf G asserts Q ts b ((pseudoRandomZR G prf lblAlpha : Int) : ZMod G.r) ((pseudoRandomZR G prf lblBeta : Int) : ZMod G.r)
      ((pseudoRandomZR G prf lblRy : Int) : ZMod G.r) d p l rho A) = run G asserts Q ts b prf d p A := by
  induction A with
  | done g => intros; rfl
  | puncture t c ih =>
    intro d p l rho hl hr
    simp only [onPrf, playR, run]
    rw [← incPuncture_eq hG asserts prf d t.1 hl]
    exact ih _ _ _ _ _ (by rw [if_neg (by omega)]) fun _ => ⟨by omega, rfl⟩
  | initial c ih =>
    intro d p l rho hl hr
    simp only [onPrf, run]
    cases p with
    | false => exact ih _ _ _ _ _ hl hr
    | true =>
      obtain ⟨h1, h2⟩ := hr rfl
      rw [if_pos rfl, if_pos rfl, initialKeyshare_eq hG prf h1, ih _ _ _ _ _ hl hr, hl, if_neg h1, h2]
  | encrypt m t c ih =>
    intro d p l rho hl hr
    simp only [onPrf, playR, run]
    refine congrArg E (funext fun x => ?_)
    rw [encrypt_eq hG prf x m.toNat t.2]
    exact ih _ _ _ _ _ hl hr
  | challenge m0 m1 c ih =>
    intro d p l rho hl hr
    simp only [onPrf, playR, run]
    refine congrArg E (funext fun x => ?_)
    rw [encrypt_eq hG prf x _ ts.2]
    exact ih _ _ _ _ _ hl hr

theorem run_prfAttack (hG : G.Ok) (prf : Bytes → Bytes) (A : Adv) :
    playR (pseudoRandomZR G prf) (prfAttack G asserts Q ts b A) = run G asserts Q ts b prf 0 false A :=
  run_onPrf asserts Q ts b hG prf A 0 false _ _ (by rw [if_pos rfl]) (fun h => by simp at h)

theorem few_onPrf (alpha beta ry : ZMod G.r) {np nq nn : Nat} {A : Adv} (hA : Within np nq nn A) : ∀ (d : Nat) (p : Bool) (l rho : ZMod G.r),
    Few (3 * np) (nn + nq) (onPrf G asserts Q ts b alpha beta ry d p l rho A) := by
  induction hA with
  | done g => intros; exact .done g
  | puncture _ ih => intro d p l rho; exact .ask fun _ => .ask fun _ => .ask fun _ => ih _ _ _ _ _
  | initial _ ih =>
    intro d p l rho
    rw [onPrf]
    split <;> exact ih _ _ _ _ _
  | @encrypt np nq nn m t c _ ih =>
    intro d p l rho
    rw [Nat.add_right_comm]
    exact .toss fun _ => ih _ _ _ _ _
  | challenge _ ih => intro d p l rho; exact .toss fun _ => ih _ _ _ _ _

theorem few_prfAttack {np nq nn : Nat} {A : Adv} (hA : Within np nq nn A) : Few (3 * np + 3) (nn + nq) (prfAttack G asserts Q ts b A) :=
  .ask fun _ => .ask fun _ => .ask fun _ => few_onPrf asserts Q ts b _ _ _ hA _ _ _ _

/-! ## Uniform scalars -/

/-- The game with uniform scalars; the first `k` challenges have random masks. -/
def hyb (alpha beta ry : ZMod G.r) : Nat → Bool → ZMod G.r → ZMod G.r → Adv → ℚ
  | _, _, _, _, .done g => if g then 1 else 0
  | k, p, l, _, .puncture t c => E fun l' : ZMod G.r => E fun rho' : ZMod G.r => E fun s : ZMod G.r =>
    hyb alpha beta ry k (p || t.1 == ts.1) l' rho' (c (onPuncture G asserts beta ry (l' - l) s t.1))
  | k, p, l, rho, .initial c =>
    if p then hyb alpha beta ry k p l rho (c (shareS G beta ry (-l) rho nullTag)) else hyb alpha beta ry k p l rho (c (.exc .runtimeError))
  | k, p, l, rho, .encrypt m t c => E fun x : Fin Q => hyb alpha beta ry k p l rho (c (onEncrypt G alpha beta ry x m.toNat t.1))
  | 0, p, l, rho, .challenge m0 m1 c => E fun x : Fin Q => hyb alpha beta ry 0 p l rho (c (onEncrypt G alpha beta ry x (if b then m1 else m0).toNat ts.1))
  | k + 1, p, l, rho, .challenge m0 m1 c => E fun x : Fin Q => E fun z : ZMod G.r =>
    hyb alpha beta ry k p l rho (c (ctS G beta ry x (pad G ts.1 (ex z G.gT)) (if b then m1 else m0).toNat ts.1))

/-- Nothing has been asked about later punctures. -/
def Later (d : Nat) (L : List (Bytes × Int)) : Prop :=
  ∀ d', d < d' → L.lookup (lblL d') = none ∧ L.lookup (lblRho d') = none ∧ L.lookup (lblR1 d') = none

theorem lookup_other {u v : Use} (h : v ≠ u) (y : Int) (L : List (Bytes × Int)) : ((u.label, y) :: L).lookup v.label = L.lookup v.label := by
  have hn : (v.label == u.label) = false := by
    rw [beq_eq_false_iff_ne]
    exact fun e => h (c52_labels _ _ e)
  rw [List.lookup_cons, hn]

theorem lookup_none_cons {u v : Use} (h : v ≠ u) (y : Int) {L : List (Bytes × Int)} (hL : L.lookup v.label = none) :
    ((u.label, y) :: L).lookup v.label = none := by rw [lookup_other h, hL]

theorem freshR_onPrf (alpha beta ry : ZMod G.r) (A : Adv) : ∀ (d : Nat) (p : Bool) (l rho : ZMod G.r) (L : List (Bytes × Int)), Later d L →
    freshR (fun y : Fin G.r => ((y : Nat) : Int)) L (onPrf G asserts Q ts b alpha beta ry d p l rho A) = hyb asserts Q ts b alpha beta ry 0 p l rho A := by
  induction A with
  | done g => intros; rfl
  | puncture t c ih =>
    intro d p l rho L hL
    obtain ⟨h1, h2, h3⟩ := hL (d + 1) (by omega)
    simp only [onPrf, freshR, hyb]
    rw [h1]
    simp only
    rw [← E_scalar]
    refine congrArg E (funext fun l' => ?_)
    have k2 := lookup_none_cons (u := .l (d + 1)) (v := .rho (d + 1)) (by simp) (((l' : Nat) : Int)) h2
    simp only [Use.label] at k2
    rw [k2]
    simp only
    rw [← E_scalar]
    refine congrArg E (funext fun rho' => ?_)
    have k3 := lookup_none_cons (u := .rho (d + 1)) (v := .r1 (d + 1)) (by simp) (((rho' : Nat) : Int))
      (lookup_none_cons (u := .l (d + 1)) (v := .r1 (d + 1)) (by simp) (((l' : Nat) : Int)) h3)
    simp only [Use.label] at k3
    rw [k3]
    simp only
    rw [← E_scalar]
    refine congrArg E (funext fun s => ih _ _ _ _ _ _ ?_)
    intro d' hd'
    obtain ⟨q1, q2, q3⟩ := hL d' (by omega)
    have hne : d' ≠ d + 1 := by omega
    refine ⟨?_, ?_, ?_⟩
    · exact lookup_none_cons (u := .r1 (d + 1)) (v := .l d') (by simp) _ (lookup_none_cons (u := .rho (d + 1)) (v := .l d') (by simp) _
        (lookup_none_cons (u := .l (d + 1)) (v := .l d') (by simpa using hne) _ q1))
    · exact lookup_none_cons (u := .r1 (d + 1)) (v := .rho d') (by simp) _ (lookup_none_cons (u := .rho (d + 1)) (v := .rho d') (by simpa using hne) _
        (lookup_none_cons (u := .l (d + 1)) (v := .rho d') (by simp) _ q2))
    · exact lookup_none_cons (u := .r1 (d + 1)) (v := .r1 d') (by simpa using hne) _ (lookup_none_cons (u := .rho (d + 1)) (v := .r1 d') (by simp) _
        (lookup_none_cons (u := .l (d + 1)) (v := .r1 d') (by simp) _ q3))
  | initial c ih =>
    intro d p l rho L hL
    simp only [onPrf, hyb]
    cases p with
    | false => exact ih _ _ _ _ _ _ hL
    | true => exact ih _ _ _ _ _ _ hL
  | encrypt m t c ih =>
    intro d p l rho L hL
    simp only [onPrf, freshR, hyb]
    exact congrArg E (funext fun x => ih _ _ _ _ _ _ hL)
  | challenge m0 m1 c ih =>
    intro d p l rho L hL
    simp only [onPrf, freshR, hyb]
    exact congrArg E (funext fun x => ih _ _ _ _ _ _ hL)

theorem freshR_prfAttack (A : Adv) : freshR (fun y : Fin G.r => ((y : Nat) : Int)) [] (prfAttack G asserts Q ts b A) =
    E fun alpha : ZMod G.r => E fun beta : ZMod G.r => E fun ry : ZMod G.r => hyb asserts Q ts b alpha beta ry 0 false (-alpha) 0 A := by
  unfold prfAttack
  simp only [freshR, List.lookup_nil]
  rw [← E_scalar]
  refine congrArg E (funext fun alpha => ?_)
  have k1 := lookup_none_cons (u := .alpha) (v := .beta) (by simp) (((alpha : Nat) : Int)) (L := []) rfl
  simp only [Use.label] at k1
  rw [k1]
  simp only
  rw [← E_scalar]
  refine congrArg E (funext fun beta => ?_)
  have k2 := lookup_none_cons (u := .beta) (v := .ry) (by simp) (((beta : Nat) : Int))
    (lookup_none_cons (u := .alpha) (v := .ry) (by simp) (((alpha : Nat) : Int)) (L := []) rfl)
  simp only [Use.label] at k2
  rw [k2]
  simp only
  rw [← E_scalar]
  refine congrArg E (funext fun ry => freshR_onPrf asserts Q ts b _ _ _ A 0 false _ _ _ ?_)
  intro d' _
  refine ⟨?_, ?_, ?_⟩
  · exact lookup_none_cons (u := .ry) (v := .l d') (by simp) _ (lookup_none_cons (u := .beta) (v := .l d') (by simp) _
      (lookup_none_cons (u := .alpha) (v := .l d') (by simp) _ rfl))
  · exact lookup_none_cons (u := .ry) (v := .rho d') (by simp) _ (lookup_none_cons (u := .beta) (v := .rho d') (by simp) _
      (lookup_none_cons (u := .alpha) (v := .rho d') (by simp) _ rfl))
  · exact lookup_none_cons (u := .ry) (v := .r1 d') (by simp) _ (lookup_none_cons (u := .beta) (v := .r1 d') (by simp) _
      (lookup_none_cons (u := .alpha) (v := .r1 d') (by simp) _ rfl))

/-- From the PRF to uniform scalars. -/
theorem run_hyb [NeZero Q] (hG : G.Ok) (h2 : G.r < 2 ^ 256) {m : Nat} (F : Bytes → Bytes → Bytes) {np nq nn : Nat} {A : Adv} (hA : Within np nq nn A) :
    |E (fun k : Block m => run G asserts Q ts b (F (toBytes k)) 0 false A) -
        E (fun alpha : ZMod G.r => E fun beta : ZMod G.r => E fun ry : ZMod G.r => hyb asserts Q ts b alpha beta ry 0 false (-alpha) 0 A)| ≤
      advScalars G Q (m := m) F prfSize (nn + nq) (prfAttack G asserts Q ts b A) + (3 * np + 3) / 2 ^ 34 := by
  have hne : Nonempty (Fin G.r) := ⟨⟨0, hG.prime.pos⟩⟩
  have hf := few_prfAttack (G := G) asserts Q ts b hA
  rw [← freshR_prfAttack, ← E_det_fresh _ hf]
  have e : E (fun k : Block m => run G asserts Q ts b (F (toBytes k)) 0 false A) =
      E fun ω : Fin (nn + nq) → Fin Q => E fun k : Block m => play (pseudoRandomZR G (F (toBytes k))) (det (List.ofFn ω) (prfAttack G asserts Q ts b A)) := by
    rw [E_comm]
    refine congrArg E (funext fun k => ?_)
    rw [E_det _ hf, run_prfAttack asserts Q ts b hG]
  rw [e]
  refine le_trans (abs_E_sub_le_E _ _ (fun ω : Fin (nn + nq) → Fin Q =>
    advPrf (m := m) F prfSize (through (fun s => (beNat s : Int) % G.r) (det (List.ofFn ω) (prfAttack G asserts Q ts b A))) + (3 * np + 3) / 2 ^ 34) fun ω => ?_) ?_
  · have := c92_pseudorandom (m := m) G F hG.prime.pos h2 (atMost_det hf (List.ofFn ω))
    push_cast at this
    exact this
  · rw [E_add, E_const]
    exact le_refl _

end

end Verif.Ppke.Game
