import Verif.Ppke.LemmasGame

/-!
# C95: from uniform scalars to the assumption on the pairing
-/

namespace Verif.Ppke.Game

open Verif Verif.Avg Verif.Oracle

set_option linter.unusedSectionVars false

variable {G1 G2 GT : Type} [AddCommGroup G1] [AddCommGroup G2] [AddCommGroup GT]
variable {G : Grp G1 G2 GT} [NeZero G.r] (asserts : Bool) (Q : Nat) (ts : Tag) (b : Bool)

theorem E_shift {r : Nat} [NeZero r] (a : ZMod r) (f : ZMod r → ℚ) : E f = E (fun z => f (z - a)) :=
  (E_equiv (Equiv.subRight a) f).symm

/-- The slope of the line through `beta` at 0 and `theta` at the tag that is attacked. -/
def slope (ts : Tag) (beta theta : ZMod G.r) : ZMod G.r := (theta - beta) * (tagVal G ts.1)⁻¹

theorem line_ts (hG : G.Ok) (h0 : tagVal G ts.1 ≠ 0) (beta theta : ZMod G.r) : line G beta (slope ts beta theta) ts.1 = theta := by
  have := Fact.mk hG.prime
  unfold line slope
  rw [mul_comm (theta - beta), mul_inv_cancel_left₀ h0]
  ring

/-- A uniform slope is a uniform value at the tag. -/
theorem E_slope (hG : G.Ok) (h0 : tagVal G ts.1 ≠ 0) (beta : ZMod G.r) (f : ZMod G.r → ℚ) : E f = E (fun theta => f (slope ts beta theta)) := by
  have := Fact.mk hG.prime
  let e : ZMod G.r ≃ ZMod G.r :=
    { toFun := fun theta => slope ts beta theta
      invFun := fun ry => beta + tagVal G ts.1 * ry
      left_inv := fun theta => line_ts ts hG h0 beta theta
      right_inv := fun ry => by
        show (beta + tagVal G ts.1 * ry - beta) * (tagVal G ts.1)⁻¹ = ry
        rw [add_sub_cancel_left, mul_comm (tagVal G ts.1), mul_inv_cancel_right₀ h0] }
  exact (E_equiv e f).symm

section
variable {beta theta : ZMod G.r}

theorem line1_eq (hG : G.Ok) (s : G1) (a2 b2 : G2) (t : GT) (u : Bytes) :
    line1 G ts ⟨ex beta G.g1, s, a2, b2, t⟩ theta u = ex (line G beta (slope ts beta theta) u) G.g1 := by
  unfold line1 line slope
  rw [ex_ex hG.tor1, ex_add hG.tor1]
  exact congrArg (fun z => ex z G.g1) (by ring)

theorem line2_eq (hG : G.Ok) (b1 s : G1) (a2 : G2) (t : GT) (u : Bytes) :
    line2 G ts ⟨b1, s, a2, ex beta G.g2, t⟩ theta u = ex (line G beta (slope ts beta theta) u) G.g2 := by
  unfold line2 line slope
  rw [ex_ex hG.tor2, ex_add hG.tor2]
  exact congrArg (fun z => ex z G.g2) (by ring)

theorem pair_ex (hG : G.Ok) (a c : ZMod G.r) (x : Nat) : x • G.pair (ex c G.g1) (ex a G.g2) = ex (a * c * (x : ZMod G.r)) G.gT := by
  rw [ex_zsmul c, ex_zsmul a, pair_gen hG, nsmul_ex hG.torT, zsmul_ex hG.torT, ex_ex hG.torT]
  refine congrArg (fun z => ex z G.gT) ?_
  push_cast
  rw [ZMod.natCast_zmod_val, ZMod.natCast_zmod_val]
  ring

/-- What the scalars of the punctures are shifted by. -/
def off (alpha : ZMod G.r) (p : Bool) : ZMod G.r := if p then 0 else alpha

/-- What the scalar of the share is shifted by. -/
def offS (alpha : ZMod G.r) (p : Bool) (t : Tag) : ZMod G.r := if !p && t.1 == ts.1 then alpha else 0

theorem puncture_answer (hG : G.Ok) (h0 : tagVal G ts.1 ≠ 0) (alpha l l' s : ZMod G.r) (p : Bool) (t : Tag) (b1 s1 : G1) (z : GT) :
    (if asserts && t.1 == nullTag then .ub else
      if !p && t.1 == ts.1 then shareStr G (ex (l' - l + s) (ex beta G.g2)) (ex theta (ex s G.g2 - ex alpha G.g2)) (ex s G.g2 - ex alpha G.g2) t.1
      else shareStr G (ex (l' - l + s) (ex beta G.g2)) (ex s (line2 G ts ⟨b1, s1, ex alpha G.g2, ex beta G.g2, z⟩ theta t.1)) (ex s G.g2) t.1) =
    onPuncture G asserts beta (slope ts beta theta) (l' - off alpha (p || t.1 == ts.1) - (l - off alpha p)) (s - offS ts alpha p t) t.1 := by
  unfold onPuncture
  by_cases h : (asserts && t.1 == nullTag) = true
  · rw [if_pos h, if_pos h]
  · rw [if_neg h, if_neg h]
    unfold shareS
    rw [line2_eq ts hG]
    cases p with
    | true =>
      simp only [Bool.not_true, Bool.false_and, Bool.true_or, off, offS, if_true]
      rw [if_neg (by simp), if_neg (by simp), sub_zero, sub_zero, sub_zero, ex_ex hG.tor2, ex_ex hG.tor2, mul_comm, mul_comm s]
    | false =>
      by_cases ht : (t.1 == ts.1) = true
      · have ht' : t.1 = ts.1 := by simpa using ht
        simp only [Bool.not_false, Bool.true_and, Bool.false_or, off, offS, ht, if_true]
        rw [ht', line_ts ts hG h0, ex_ex hG.tor2, ex_sub hG.tor2, ex_ex hG.tor2, if_neg (by simp)]
        exact congrArg (fun y => shareStr G (ex y G.g2) (ex (theta * (s - alpha)) G.g2) (ex (s - alpha) G.g2) ts.1) (by ring)
      · simp only [Bool.not_false, Bool.true_and, Bool.false_or, off, offS, ht]
        rw [if_neg (by simp), if_neg (by simp), if_neg (by simp), sub_zero, ex_ex hG.tor2, ex_ex hG.tor2, mul_comm s]
        exact congrArg (fun y => shareStr G (ex y G.g2) (ex (line G beta (slope ts beta theta) t.1 * s) G.g2) (ex s G.g2) t.1) (by ring)

end

/-- The instances that the attack gets, and the game that it plays with them. -/
inductive Emb (alpha beta : ZMod G.r) {Ω : Type} [Fintype Ω] (S : Ω → G1) (T : Ω → GT) : Option Nat → Nat → Prop
  | none : Emb alpha beta S T none 0
  | real {i : Nat} : (∀ f : G1 → GT → ℚ, E (fun w => f (S w) (T w)) =
      E fun x : Fin Q => f (x.val • G.g1) (ex (alpha * beta * (x.val : ZMod G.r)) G.gT)) → Emb alpha beta S T (some i) i
  | rand {i : Nat} : (∀ f : G1 → GT → ℚ, E (fun w => f (S w) (T w)) =
      E fun x : Fin Q => E fun z : ZMod G.r => f (x.val • G.g1) (ex z G.gT)) → Emb alpha beta S T (some i) (i + 1)

theorem Emb.next {alpha beta : ZMod G.r} {Ω : Type} [Fintype Ω] {S : Ω → G1} {T : Ω → GT} {i k : Nat} (h : Emb Q alpha beta S T (some (i + 1)) k) :
    ∃ k', k = k' + 1 ∧ Emb Q alpha beta S T (some i) k' := by
  cases h with
  | real h => exact ⟨i, rfl, .real h⟩
  | rand h => exact ⟨i + 1, rfl, .rand h⟩

theorem sim_hyb [NeZero Q] (hG : G.Ok) (h0 : tagVal G ts.1 ≠ 0) (hn : ts.1 ≠ nullTag) (alpha beta theta : ZMod G.r) (A : Adv) :
    ∀ {Ω : Type} [Fintype Ω] [Nonempty Ω] {S : Ω → G1} {T : Ω → GT} {j : Option Nat} {k : Nat}, Emb Q alpha beta S T j k →
    ∀ (p : Bool) (l rho : ZMod G.r),
    E (fun w => sim G asserts Q ts b ⟨ex beta G.g1, S w, ex alpha G.g2, ex beta G.g2, T w⟩ theta j p l rho A) =
      hyb asserts Q ts b alpha beta (slope ts beta theta) k p (l - off alpha p) rho A := by
  have hc : ∀ (x : Nat) (k m : Nat), ctStr G (k ^^^ m) (x • G.g1) (x • ex theta G.g1) ts.1 = ctS G beta (slope ts beta theta) x k m ts.1 := by
    intro x k m
    rw [ctS, line_ts ts hG h0, nsmul_ex hG.tor1 x (ex theta G.g1), ex_ex hG.tor1, mul_comm]
  induction A with
  | done g =>
    intros
    simp only [sim, hyb]
    exact E_const _
  | puncture t c ih =>
    intro Ω _ _ S T j k hE p l rho
    simp only [sim, hyb]
    rw [E_comm]
    refine Eq.trans (congrArg E (funext fun l' => ?_)) (E_shift (off alpha (p || t.1 == ts.1)) _).symm
    rw [E_comm]
    refine congrArg E (funext fun rho' => ?_)
    rw [E_comm]
    refine Eq.trans (congrArg E (funext fun s => ?_)) (E_shift (offS ts alpha p t) _).symm
    rw [← ih _ hE]
    refine congrArg E (funext fun w => ?_)
    rw [puncture_answer asserts ts hG h0 alpha l l' s p t]
  | initial c ih =>
    intro Ω _ _ S T j k hE p l rho
    simp only [sim, hyb]
    cases p with
    | false => exact ih _ hE _ _ _
    | true =>
      rw [if_pos rfl, ← ih _ hE]
      refine congrArg E (funext fun w => ?_)
      rw [if_pos rfl, line2_eq ts hG, shareS, ex_ex hG.tor2, ex_ex hG.tor2]
      have e1 : (rho - l) * beta = beta * (-(l - off alpha true) + rho) := by
        rw [off, if_pos rfl]; ring
      rw [e1, mul_comm rho]
  | encrypt m t c ih =>
    intro Ω _ _ S T j k hE p l rho
    simp only [sim, hyb]
    rw [E_comm]
    refine congrArg E (funext fun x => ?_)
    rw [← ih _ hE]
    refine congrArg E (funext fun w => ?_)
    unfold onEncrypt
    by_cases h : t.1 = nullTag
    · rw [if_pos h, if_pos h]
    · rw [if_neg h, if_neg h, line1_eq ts hG, pair_ex hG, ctS, nsmul_ex hG.tor1 x.val (ex _ G.g1), ex_ex hG.tor1, mul_comm (x.val : ZMod G.r)]
  | challenge m0 m1 c ih =>
    intro Ω _ _ S T j k hE p l rho
    have hu : ∀ (I : Inst G1 G2 GT), I.b1 = ex beta G.g1 → I.a2 = ex alpha G.g2 → I.b2 = ex beta G.g2 → ∀ y,
        sim G asserts Q ts b I theta none p l rho (c y) = hyb asserts Q ts b alpha beta (slope ts beta theta) 0 p (l - off alpha p) rho (c y) := by
      intro I e1 e2 e3 y
      have := ih y (Ω := Unit) (S := fun _ => I.s1) (T := fun _ => I.t) (Emb.none (Q := Q)) p l rho
      rw [← e1, ← e2, ← e3, E_const] at this
      exact this
    match j, hE with
    | none, .none =>
      simp only [sim, hyb]
      rw [E_comm]
      refine congrArg E (funext fun x => ?_)
      rw [← ih _ (Emb.none (Q := Q) (S := S) (T := T))]
      refine congrArg E (funext fun w => ?_)
      unfold onEncrypt
      rw [if_neg hn, hc, pair_ex hG]
    | some (i + 1), hE =>
      obtain ⟨k', rfl, hE'⟩ := hE.next
      simp only [sim, hyb]
      rw [E_comm]
      refine congrArg E (funext fun x => ?_)
      rw [E_comm]
      refine congrArg E (funext fun z => ?_)
      rw [← ih _ hE']
      refine congrArg E (funext fun w => ?_)
      rw [hc]
    | some 0, .real h =>
      simp only [sim, hyb]
      rw [h fun s t => sim G asserts Q ts b ⟨ex beta G.g1, s, ex alpha G.g2, ex beta G.g2, t⟩ theta none p l rho (c (
        ctStr G (pad G ts.1 t ^^^ (if b then m1 else m0).toNat) s (ex theta s) ts.1))]
      refine congrArg E (funext fun x => ?_)
      rw [hu _ rfl rfl rfl]
      unfold onEncrypt
      rw [if_neg hn, ← hc, nsmul_ex hG.tor1 x.val (ex theta G.g1), nsmul_ex hG.tor1 x.val G.g1, ex_ex hG.tor1, ex_ex hG.tor1, mul_comm theta]
    | some 0, .rand h =>
      simp only [sim, hyb]
      rw [h fun s t => sim G asserts Q ts b ⟨ex beta G.g1, s, ex alpha G.g2, ex beta G.g2, t⟩ theta none p l rho (c (
        ctStr G (pad G ts.1 t ^^^ (if b then m1 else m0).toNat) s (ex theta s) ts.1))]
      refine congrArg E (funext fun x => congrArg E (funext fun z => ?_))
      rw [hu _ rfl rfl rfl, ← hc, nsmul_ex hG.tor1 x.val (ex theta G.g1), nsmul_ex hG.tor1 x.val G.g1, ex_ex hG.tor1, ex_ex hG.tor1, mul_comm theta]

/-- The game with `k` random masks, from the beginning. -/
def hybAll (k : Nat) (A : Adv) : ℚ :=
  E fun alpha : ZMod G.r => E fun beta : ZMod G.r => E fun ry : ZMod G.r => hyb asserts Q ts b alpha beta ry k false (-alpha) 0 A

/-- One more random mask costs the advantage against the pairing. -/
theorem hyb_step [NeZero Q] (hG : G.Ok) (h0 : tagVal G ts.1 ≠ 0) (hn : ts.1 ≠ nullTag) (A : Adv) (j : Nat) :
    |hybAll (G := G) asserts Q ts b j A - hybAll (G := G) asserts Q ts b (j + 1) A| = advBdh G Q (solver G asserts Q ts b j A) := by
  have e1 : hybAll (G := G) asserts Q ts b j A = E (fun a : ZMod G.r => E fun c : ZMod G.r => E fun s : Fin Q =>
      solver G asserts Q ts b j A ⟨ex c G.g1, s.val • G.g1, ex a G.g2, ex c G.g2, ex (a * c * (s.val : ZMod G.r)) G.gT⟩) := by
    refine congrArg E (funext fun alpha => congrArg E (funext fun beta => ?_))
    unfold solver
    rw [E_comm, E_slope ts hG h0 beta]
    refine congrArg E (funext fun theta => ?_)
    have := sim_hyb asserts Q ts b hG h0 hn alpha beta theta A (Ω := Fin Q) (S := fun s => s.val • G.g1)
      (T := fun s => ex (alpha * beta * (s.val : ZMod G.r)) G.gT) (j := some j) (k := j) (.real fun f => rfl) false 0 0
    rw [this]
    congr 1
    rw [off, if_neg (by simp), zero_sub]
  have e2 : hybAll (G := G) asserts Q ts b (j + 1) A = E (fun a : ZMod G.r => E fun c : ZMod G.r => E fun s : Fin Q => E fun t : ZMod G.r =>
      solver G asserts Q ts b j A ⟨ex c G.g1, s.val • G.g1, ex a G.g2, ex c G.g2, ex t G.gT⟩) := by
    refine congrArg E (funext fun alpha => congrArg E (funext fun beta => ?_))
    unfold solver
    have e3 : ∀ s : Fin Q, E (fun t : ZMod G.r => E fun theta : ZMod G.r => sim G asserts Q ts b
        ⟨ex beta G.g1, s.val • G.g1, ex alpha G.g2, ex beta G.g2, ex t G.gT⟩ theta (some j) false 0 0 A) =
        E (fun theta : ZMod G.r => E fun t : ZMod G.r => sim G asserts Q ts b
        ⟨ex beta G.g1, s.val • G.g1, ex alpha G.g2, ex beta G.g2, ex t G.gT⟩ theta (some j) false 0 0 A) := fun s => E_comm _
    simp only [e3]
    rw [E_comm, E_slope ts hG h0 beta]
    refine congrArg E (funext fun theta => ?_)
    have := sim_hyb asserts Q ts b hG h0 hn alpha beta theta A (Ω := Fin Q × ZMod G.r) (S := fun s => s.1.val • G.g1)
      (T := fun s => ex s.2 G.gT) (j := some j) (k := j + 1) (.rand fun f => by rw [E_prod]) false 0 0
    rw [E_prod] at this
    rw [this]
    congr 1
    rw [off, if_neg (by simp), zero_sub]
  rw [e1, e2]
  rfl

theorem hyb_steps [NeZero Q] (hG : G.Ok) (h0 : tagVal G ts.1 ≠ 0) (hn : ts.1 ≠ nullTag) (A : Adv) : ∀ q : Nat,
    |hybAll (G := G) asserts Q ts b 0 A - hybAll (G := G) asserts Q ts b q A| ≤ ∑ j ∈ Finset.range q, advBdh G Q (solver G asserts Q ts b j A)
  | 0 => by simp
  | q + 1 => by
    have h1 := hyb_steps hG h0 hn A q
    have h2 := hyb_step asserts Q ts b hG h0 hn A q
    rw [Finset.sum_range_succ, ← h2]
    exact le_trans (abs_sub_le _ (hybAll (G := G) asserts Q ts b q A) _) (by linarith)

/-! ## Random masks hide the message -/

theorem hyb_test [NeZero Q] (alpha beta ry : ZMod G.r) (A : Adv) : ∀ (k : Nat) (p : Bool) (l rho : ZMod G.r),
    0 ≤ hyb asserts Q ts b alpha beta ry k p l rho A ∧ hyb asserts Q ts b alpha beta ry k p l rho A ≤ 1 := by
  induction A with
  | done g => intros; simp only [hyb]; split <;> norm_num
  | puncture t c ih =>
    intro k p l rho
    simp only [hyb]
    exact ⟨E_nonneg fun _ => E_nonneg fun _ => E_nonneg fun _ => (ih _ _ _ _ _).1, E_le_one fun _ => E_le_one fun _ => E_le_one fun _ => (ih _ _ _ _ _).2⟩
  | initial c ih =>
    intro k p l rho
    simp only [hyb]
    split <;> exact ih _ _ _ _ _
  | encrypt m t c ih =>
    intro k p l rho
    simp only [hyb]
    exact ⟨E_nonneg fun _ => (ih _ _ _ _ _).1, E_le_one fun _ => (ih _ _ _ _ _).2⟩
  | challenge m0 m1 c ih =>
    intro k p l rho
    cases k with
    | zero =>
      simp only [hyb]
      exact ⟨E_nonneg fun _ => (ih _ _ _ _ _).1, E_le_one fun _ => (ih _ _ _ _ _).2⟩
    | succ k =>
      simp only [hyb]
      exact ⟨E_nonneg fun _ => E_nonneg fun _ => (ih _ _ _ _ _).1, E_le_one fun _ => E_le_one fun _ => (ih _ _ _ _ _).2⟩

/-- A uniform mask hides the message. -/
theorem E_mask (m0 m1 : UInt64) (f : Nat → ℚ) : E (fun k : Fin (2 ^ 64) => f (k.val ^^^ m0.toNat)) = E (fun k : Fin (2 ^ 64) => f (k.val ^^^ m1.toNat)) := by
  have hx : ∀ a : Fin (2 ^ 64), a.val ^^^ (m0.toNat ^^^ m1.toNat) < 2 ^ 64 := fun a =>
    Nat.xor_lt_two_pow a.isLt (Nat.xor_lt_two_pow m0.toNat_lt m1.toNat_lt)
  have hi : ∀ a : Nat, a ^^^ (m0.toNat ^^^ m1.toNat) ^^^ (m0.toNat ^^^ m1.toNat) = a := fun a => by
    rw [Nat.xor_assoc, Nat.xor_self, Nat.xor_zero]
  let e : Fin (2 ^ 64) ≃ Fin (2 ^ 64) :=
    { toFun := fun a => ⟨a.val ^^^ (m0.toNat ^^^ m1.toNat), hx a⟩
      invFun := fun a => ⟨a.val ^^^ (m0.toNat ^^^ m1.toNat), hx a⟩
      left_inv := fun a => Fin.ext (hi a.val)
      right_inv := fun a => Fin.ext (hi a.val) }
  rw [← E_equiv e]
  refine congrArg E (funext fun a => congrArg f ?_)
  show a.val ^^^ (m0.toNat ^^^ m1.toNat) ^^^ m0.toNat = _
  rw [Nat.xor_comm m0.toNat, Nat.xor_assoc, Nat.xor_assoc, Nat.xor_self, Nat.xor_zero]

theorem hyb_hides [NeZero Q] {δ : ℚ} (hδ : 0 ≤ δ) (hM : Mixes G ts.1 δ) (alpha beta ry : ZMod G.r) {np nq nn : Nat} {A : Adv} (hA : Within np nq nn A) :
    ∀ (p : Bool) (l rho : ZMod G.r),
    |hyb asserts Q ts false alpha beta ry nq p l rho A - hyb asserts Q ts true alpha beta ry nq p l rho A| ≤ 2 * nq * δ := by
  induction hA with
  | done g => intros; simp only [hyb, sub_self, abs_zero]; positivity
  | puncture _ ih =>
    intro p l rho
    simp only [hyb]
    exact abs_E_sub_le _ _ fun _ => abs_E_sub_le _ _ fun _ => abs_E_sub_le _ _ fun _ => ih _ _ _ _
  | initial _ ih =>
    intro p l rho
    simp only [hyb]
    split <;> exact ih _ _ _ _
  | encrypt _ ih =>
    intro p l rho
    simp only [hyb]
    exact abs_E_sub_le _ _ fun _ => ih _ _ _ _
  | @challenge np nq nn m0 m1 c _ ih =>
    intro p l rho
    simp only [hyb]
    refine abs_E_sub_le _ _ fun x => ?_
    let g : UInt64 → Nat → ℚ := fun m k => hyb asserts Q ts false alpha beta ry nq p l rho (c (ctS G beta ry x k m.toNat ts.1))
    have h1 := hM (g m0) fun k => hyb_test asserts Q ts false alpha beta ry _ _ _ _ _
    have h2 := hM (g m1) fun k => hyb_test asserts Q ts false alpha beta ry _ _ _ _ _
    have h3 : E (fun k : Fin (2 ^ 64) => g m0 k) = E (fun k : Fin (2 ^ 64) => g m1 k) :=
      E_mask m0 m1 fun k => hyb asserts Q ts false alpha beta ry nq p l rho (c (ctStr G k (x.val • G.g1) (ex (line G beta ry ts.1 * (x.val : ZMod G.r)) G.g1) ts.1))
    have h4 := abs_E_sub_le (fun z : ZMod G.r => g m1 (pad G ts.1 (ex z G.gT)))
      (fun z : ZMod G.r => hyb asserts Q ts true alpha beta ry nq p l rho (c (ctS G beta ry x (pad G ts.1 (ex z G.gT)) m1.toNat ts.1)))
      fun z => ih _ p l rho
    rw [h3] at h1
    simp only [if_true, Bool.false_eq_true, if_false]
    have h5 := abs_sub_le (E fun z : ZMod G.r => g m0 (pad G ts.1 (ex z G.gT))) (E (fun k : Fin (2 ^ 64) => g m1 k)) (E fun z : ZMod G.r => g m1 (pad G ts.1 (ex z G.gT)))
    have h6 := abs_sub_le (E fun z : ZMod G.r => g m0 (pad G ts.1 (ex z G.gT))) (E fun z : ZMod G.r => g m1 (pad G ts.1 (ex z G.gT)))
      (E fun z : ZMod G.r => hyb asserts Q ts true alpha beta ry nq p l rho (c (ctS G beta ry x (pad G ts.1 (ex z G.gT)) m1.toNat ts.1)))
    rw [abs_sub_comm] at h2
    push_cast
    refine le_trans h6 ?_
    linarith

end Verif.Ppke.Game
