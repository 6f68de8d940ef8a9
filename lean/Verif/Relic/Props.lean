import Verif.Relic.Lemmas

/-! # C96: scalars and group elements of the wrapper of RELIC -/

namespace Verif.Relic

open Verif

variable {P : Prims}

theorem answers_bind₁ {α β γ δ : Type} {R : α → β → Prop} {S : γ → δ → Prop} {a : Res α} {f : α → Res γ} {x : Option β} {g : β → Option δ}
    (h : Answers R a x) (hf : ∀ b y, R b y → x = some y → Answers S (f b) (g y)) : Answers S (a >>= f) (x >>= g) := by
  cases x with
  | none => rw [show a = .exc .logicError from h]; rfl
  | some y =>
    obtain ⟨b, rfl, hb⟩ := h
    exact hf b y hb rfl

theorem answers_ok {α β : Type} {R : α → β → Prop} {b : α} {y : β} (h : R b y) : Answers R (.ok b) (some y) := ⟨b, rfl, h⟩

section

variable (hP : P.Ok)
include hP

theorem div_stored {S : Bn → ZMod P.r → Prop} {x y : Bn} {u v : ZMod P.r} (hy : Stored P y v)
    (hS : 0 < y.val → S (mul P x (invertZR P y)) (v⁻¹ * u)) :
    Answers S (div P x y) (if v.val = 0 then none else some (v⁻¹ * u)) := by
  obtain ⟨h0, h1, ht, _⟩ := (stored_iff hP).1 hy
  unfold div
  rw [isZero_trim ht]
  by_cases h : v.val = 0
  · have : y.val = 0 := by rw [hy.1, h]; rfl
    simp [this, h, Answers]
  · have hne : y.val ≠ 0 := by rw [hy.1]; exact_mod_cast h
    simp only [hne, h, decide_false, Bool.false_eq_true, if_false]
    exact answers_ok (hS (by omega))

/-- C96, programs without negative numbers: the code computes the number modulo the order that the program means, below the order and
without leading zero digits, and it throws `RelicDividByZero` exactly when the program divides by zero. -/
theorem c96_scalars (e : Expr) (h : Fine P e) : Answers (Stored P) (eval P e) (den P e) := by
  have hr := r_pos hP
  have hr1 : 1 < P.r := hP.prime.one_lt
  have : Fact P.r.Prime := ⟨hP.prime⟩
  induction e with
  | dflt => exact answers_ok ((stored_iff hP).2 ⟨by simp [zrOne, val_nrm], by simp only [zrOne, val_nrm]; omega, trim_nrm _, by simp [zrOne, val_nrm]⟩)
  | int x =>
    simp only [eval]
    rw [zrInt_ok (isInt_neg h.1 h.2)]
    have hl := hP.low
    have hx := h.1.2
    have h3 : x < P.r := by
      have h4 : (2 : Int) ^ 253 < P.r := by exact_mod_cast hl
      have h5 : (2 : Int) ^ 31 < 2 ^ 253 := by norm_num
      omega
    exact answers_ok ((stored_iff hP).2 ⟨by rw [val_nrm]; exact h.2, by rw [val_nrm]; exact h3, trim_nrm _, by rw [val_nrm]⟩)
  | bytes b =>
    simp only [Fine] at h
    exact answers_ok ((stored_iff hP).2 ⟨by simp only [zrBytes, val_nrm]; omega, by simp only [zrBytes, val_nrm]; omega, trim_nrm _, by simp [zrBytes, val_nrm]⟩)
  | text s =>
    simp only [eval, zrText_eq]
    exact answers_ok ((stored_iff hP).2 ⟨by rw [val_nrm]; exact h.1, by rw [val_nrm]; exact h.2, trim_nrm _, by rw [val_nrm]⟩)
  | rand x =>
    refine answers_ok ((stored_iff hP).2 ?_)
    unfold zrRandom
    rw [val_nrm, val_nrm]
    refine ⟨?_, ?_, trim_nrm _, ?_⟩
    · rw [hP.mod_pos _ (by omega)]; exact Int.emod_nonneg _ (by omega)
    · rw [hP.mod_pos _ (by omega)]; exact Int.emod_lt_of_pos _ hr
    · rw [mod_residue hP]; simp
  | prf out =>
    refine answers_ok ((stored_iff hP).2 ?_)
    unfold zrPrf
    rw [val_nrm, val_nrm]
    refine ⟨?_, ?_, trim_nrm _, ?_⟩
    · rw [hP.mod_pos _ (by omega)]; exact Int.emod_nonneg _ (by omega)
    · rw [hP.mod_pos _ (by omega)]; exact Int.emod_lt_of_pos _ hr
    · rw [mod_residue hP]; simp
  | hash m =>
    refine answers_ok ((stored_iff hP).2 ⟨(range_hash hP h).1, (range_hash hP h).2, trim_hash P m, cast_hash hP m⟩)
  | order => exact h.elim
  | add a b iha ihb =>
    refine answers_bind₁ (iha h.1) fun x u hx _ => answers_bind₁ (ihb h.2) fun y v hy _ => answers_ok ?_
    obtain ⟨x0, x1, xt, xc⟩ := (stored_iff hP).1 hx
    obtain ⟨y0, y1, yt, yc⟩ := (stored_iff hP).1 hy
    exact (stored_iff hP).2 ⟨(range_add hP x0 y0).1, (range_add hP x0 y0).2, trim_add P x y, by rw [cast_add hP, xc, yc]⟩
  | sub a b iha ihb =>
    refine answers_bind₁ (iha h.1) fun x u hx _ => answers_bind₁ (ihb h.2) fun y v hy _ => answers_ok ?_
    obtain ⟨x0, x1, xt, xc⟩ := (stored_iff hP).1 hx
    obtain ⟨y0, y1, yt, yc⟩ := (stored_iff hP).1 hy
    have := range_sub hP ⟨x0, x1⟩ ⟨y0, y1⟩
    exact (stored_iff hP).2 ⟨this.1, this.2, trim_sub P x y, by rw [cast_sub hP, xc, yc]⟩
  | neg a iha =>
    refine answers_bind₁ (iha h) fun x u hx _ => answers_ok ?_
    obtain ⟨x0, x1, xt, xc⟩ := (stored_iff hP).1 hx
    have := range_neg xt ⟨x0, x1⟩
    exact (stored_iff hP).2 ⟨this.1, this.2, trim_neg P xt, by rw [cast_neg xt, xc]⟩
  | mul a b iha ihb =>
    refine answers_bind₁ (iha h.1) fun x u hx _ => answers_bind₁ (ihb h.2) fun y v hy _ => answers_ok ?_
    obtain ⟨x0, x1, xt, xc⟩ := (stored_iff hP).1 hx
    obtain ⟨y0, y1, yt, yc⟩ := (stored_iff hP).1 hy
    have := range_mul hP x0 y0
    exact (stored_iff hP).2 ⟨this.1, this.2, trim_mul P x y, by rw [cast_mul hP, xc, yc]⟩
  | div a b iha ihb =>
    refine answers_bind₁ (iha h.1) fun x u hx _ => answers_bind₁ (ihb h.2) fun y v hy _ => ?_
    obtain ⟨x0, x1, xt, xc⟩ := (stored_iff hP).1 hx
    obtain ⟨y0, y1, yt, yc⟩ := (stored_iff hP).1 hy
    refine div_stored hP hy fun hpos => ?_
    have := range_mul hP x0 (range_inv hP hpos y1).1
    exact (stored_iff hP).2 ⟨this.1, this.2, trim_mul P _ _, by rw [cast_mul hP, xc, cast_inv hP hpos y1, yc, mul_comm]⟩
  | divInt g b ihb =>
    refine answers_bind₁ (ihb h.2.2) fun y v hy _ => ?_
    obtain ⟨y0, y1, yt, yc⟩ := (stored_iff hP).1 hy
    unfold divInt
    rw [zrInt_ok (isInt_neg h.1 h.2.1), Res.bind_ok]
    refine div_stored hP hy fun hpos => ?_
    have hg : 0 ≤ (nrm g).val := by rw [val_nrm]; exact h.2.1
    have := range_mul hP hg (range_inv hP hpos y1).1
    exact (stored_iff hP).2 ⟨this.1, this.2, trim_mul P _ _, by rw [cast_mul hP, val_nrm, cast_inv hP hpos y1, yc, mul_comm]⟩
  | inv a iha =>
    refine answers_bind₁ (iha h.1) fun x u hx hu => answers_ok ?_
    obtain ⟨x0, x1, xt, xc⟩ := (stored_iff hP).1 hx
    have hpos : 0 < x.val := by
      rcases lt_or_eq_of_le x0 with h1 | h1
      · exact h1
      · exfalso
        apply h.2
        rw [hu, ← xc, ← h1]; simp
    have := range_inv hP hpos x1
    exact (stored_iff hP).2 ⟨this.1, this.2, trim_invertZR P x, by unfold inverse; rw [cast_inv hP hpos x1, xc]⟩
  | pow a b iha ihb =>
    refine answers_bind₁ (iha h.1) fun x u hx _ => answers_bind₁ (ihb h.2) fun y v hy _ => answers_ok ?_
    obtain ⟨x0, x1, xt, xc⟩ := (stored_iff hP).1 hx
    unfold pow
    rw [hy.1, hP.mxp_pos _ x0]
    refine (stored_iff hP).2 ⟨?_, ?_, trim_nrm _, ?_⟩ <;> rw [val_nrm]
    · exact Int.emod_nonneg _ (by omega)
    · exact Int.emod_lt_of_pos _ hr
    · rw [ZMod.intCast_mod]; push_cast; rw [xc]
  | powInt a k iha =>
    refine answers_bind₁ (iha h.1) fun x u hx _ => ?_
    obtain ⟨x0, x1, xt, xc⟩ := (stored_iff hP).1 hx
    unfold powInt
    rw [zrInt_ok (isInt_neg h.2.1 h.2.2), Res.bind_ok, val_nrm]
    have hk : k = (k.toNat : Int) := by have := h.2.2; omega
    rw [show P.mxp x.val k = P.mxp x.val (k.toNat : Int) from congrArg _ hk, hP.mxp_pos _ x0]
    refine answers_ok ((stored_iff hP).2 ⟨?_, ?_, trim_nrm _, ?_⟩) <;> rw [val_nrm]
    · exact Int.emod_nonneg _ (by omega)
    · exact Int.emod_lt_of_pos _ hr
    · rw [ZMod.intCast_mod]; push_cast; rw [xc]
  | shl a n iha =>
    refine answers_bind₁ (iha h) fun x u hx _ => answers_ok ?_
    obtain ⟨x0, x1, xt, xc⟩ := (stored_iff hP).1 hx
    have := range_shl hP ⟨x0, x1⟩ n
    exact (stored_iff hP).2 ⟨this.1, this.2, trim_shl P x n, by rw [cast_shl hP, xc]⟩
  | shr a n iha =>
    refine answers_bind₁ (iha h) fun x u hx _ => answers_ok ?_
    obtain ⟨x0, x1, xt, xc⟩ := (stored_iff hP).1 hx
    have hv := val_shr xt x0 n
    have hx2 : x.val.toNat = u.val := by rw [hx.1]; rfl
    refine (stored_iff hP).2 ⟨by rw [hv]; exact Int.natCast_nonneg _, ?_, trim_shr x n, by rw [hv, hx2, Int.cast_natCast]⟩
    rw [hv]
    have : x.val.toNat / 2 ^ n ≤ x.val.toNat := Nat.div_le_self _ _
    omega

/-- C96, all programs: the code computes a number with the right remainder, also from negative numbers and from numbers beyond the order;
only the representative may be another one. -/
theorem c96_residue (e : Expr) (h : Loose P e) : Answers (fun b x => (b.val : ZMod P.r) = x ∧ Trim b) (eval P e) (den P e) := by
  have hfine : ∀ e, Fine P e → Answers (fun b x => (b.val : ZMod P.r) = x ∧ Trim b) (eval P e) (den P e) := by
    intro e he
    have := c96_scalars hP e he
    cases hd : den P e with
    | none => rw [hd] at this; exact this
    | some x =>
      rw [hd] at this
      obtain ⟨b, hb, hs⟩ := this
      obtain ⟨_, _, ht, hc⟩ := (stored_iff hP).1 hs
      exact ⟨b, hb, hc, ht⟩
  induction e with
  | dflt => exact hfine _ trivial
  | int x =>
    simp only [eval]
    rw [zrInt_ok h.2]
    exact answers_ok ⟨by rw [val_nrm], trim_nrm _⟩
  | bytes b => exact answers_ok ⟨by simp [zrBytes, val_nrm], trim_nrm _⟩
  | text s => simp only [eval, zrText_eq]; exact answers_ok ⟨by rw [val_nrm], trim_nrm _⟩
  | rand x => exact hfine _ trivial
  | prf out => exact hfine _ trivial
  | hash m => exact answers_ok ⟨cast_hash hP m, trim_hash P m⟩
  | order => exact answers_ok ⟨by rw [val_order]; simp, trim_nrm _⟩
  | add a b iha ihb =>
    refine answers_bind₁ (iha h.1) fun x u hx _ => answers_bind₁ (ihb h.2) fun y v hy _ => answers_ok ⟨?_, trim_add P x y⟩
    rw [cast_add hP, hx.1, hy.1]
  | sub a b iha ihb =>
    refine answers_bind₁ (iha h.1) fun x u hx _ => answers_bind₁ (ihb h.2) fun y v hy _ => answers_ok ⟨?_, trim_sub P x y⟩
    rw [cast_sub hP, hx.1, hy.1]
  | neg a iha =>
    refine answers_bind₁ (iha h) fun x u hx _ => answers_ok ⟨?_, trim_neg P hx.2⟩
    rw [cast_neg hx.2, hx.1]
  | mul a b iha ihb =>
    refine answers_bind₁ (iha h.1) fun x u hx _ => answers_bind₁ (ihb h.2) fun y v hy _ => answers_ok ⟨?_, trim_mul P x y⟩
    rw [cast_mul hP, hx.1, hy.1]
  | div a b iha ihb =>
    refine answers_bind₁ (iha h.1) fun x u hx _ => answers_bind₁ (c96_scalars hP b h.2) fun y v hy _ => ?_
    obtain ⟨y0, y1, yt, yc⟩ := (stored_iff hP).1 hy
    refine div_stored hP hy fun hpos => ⟨?_, trim_mul P _ _⟩
    rw [cast_mul hP, hx.1, cast_inv hP hpos y1, yc, mul_comm]
  | divInt g b ihb =>
    refine answers_bind₁ (c96_scalars hP b h.2.2) fun y v hy _ => ?_
    obtain ⟨y0, y1, yt, yc⟩ := (stored_iff hP).1 hy
    unfold divInt
    rw [zrInt_ok h.2.1, Res.bind_ok]
    refine div_stored hP hy fun hpos => ⟨?_, trim_mul P _ _⟩
    rw [cast_mul hP, val_nrm, cast_inv hP hpos y1, yc, mul_comm]
  | inv a iha => exact hfine _ h
  | pow a b iha ihb => exact hfine _ h
  | powInt a k iha => exact hfine _ h
  | shl a n iha =>
    refine answers_bind₁ (iha h) fun x u hx _ => answers_ok ⟨?_, trim_shl P x n⟩
    rw [cast_shl hP, hx.1]
  | shr a n iha => exact hfine _ h

/-- C96: programs without negative numbers give equal scalars exactly when they mean the same number. -/
theorem c96_equal (e f : Expr) (he : Fine P e) (hf : Fine P f) (x y : Bn) (hx : eval P e = .ok x) (hy : eval P f = .ok y) :
    eq x y = true ↔ den P e = den P f := by
  have : NeZero P.r := ⟨hP.prime.ne_zero⟩
  have h1 := c96_scalars hP e he
  have h2 := c96_scalars hP f hf
  rw [hx] at h1
  rw [hy] at h2
  cases hd : den P e with
  | none => rw [hd] at h1; cases h1
  | some u =>
    cases hd2 : den P f with
    | none => rw [hd2] at h2; cases h2
    | some v =>
      rw [hd] at h1
      rw [hd2] at h2
      obtain ⟨b, hb, hs⟩ := h1
      obtain ⟨c, hc, ht⟩ := h2
      cases hb; cases hc
      unfold eq
      rw [hs.2, ht.2, cmp_nrm]
      simp only [beq_iff_eq, compare_eq_iff_eq, Option.some.injEq]
      rw [hs.1, ht.1]
      constructor
      · intro h; exact ZMod.val_injective _ (by exact_mod_cast h)
      · rintro rfl; rfl

/-- C96: a program without negative numbers gives a member, whose 32 bytes are the number that the program means and are read back as an
equal scalar. -/
theorem c96_bytes (e : Expr) (he : Fine P e) (x : Bn) (hx : eval P e = .ok x) :
    ismember P x = true ∧ ∃ u, den P e = some u ∧ getBytes x = .ok (beBytes 32 u.val) ∧ zrBytes (beBytes 32 u.val) = x := by
  have : NeZero P.r := ⟨hP.prime.ne_zero⟩
  have h1 := c96_scalars hP e he
  rw [hx] at h1
  cases hd : den P e with
  | none => rw [hd] at h1; cases h1
  | some u =>
    rw [hd] at h1
    obtain ⟨b, hb, hs⟩ := h1
    cases hb
    obtain ⟨x0, x1, xt, xc⟩ := (stored_iff hP).1 hs
    have hn : x.neg = false := by rw [trim_neg_iff xt]; simp; omega
    have hm : (mag x.dp : Int) = x.val := by unfold Bn.val; simp [hn]
    have hm2 : mag x.dp = u.val := by have := hs.1; omega
    have hu : u.val < 256 ^ 32 := lt_trans (ZMod.val_lt u) (lt_trans hP.high (by norm_num))
    refine ⟨?_, u, rfl, ?_, ?_⟩
    · unfold ismember order
      rw [hn, xt, cmp_nrm]
      simp [compare_lt_iff_lt.2 x1]
    · unfold getBytes
      rw [hm2, if_pos hu]
    · unfold zrBytes
      rw [beNat_beBytes_of_lt hu, xt, hs.1]

end

/-! ## Group elements -/

section Groups

variable {G : Type} [AddCommGroup G] [Module (ZMod P.r) G] (hP : P.Ok)
include hP

omit hP in
theorem smul_cast (z : Int) (g : G) : z • g = ((z : Int) : ZMod P.r) • g := (Int.cast_smul_eq_zsmul (ZMod P.r) z g).symm

/-- C96: programs of elements of `G1` and `G2` compute what they mean, also with negative scalars and scalars beyond the order. -/
theorem c96_group (e : GExpr G) (h : GLoose P e) : Answers (fun a b => a = b) (geval P e) (gden P e) := by
  induction e with
  | elem g => exact answers_ok rfl
  | add a b iha ihb =>
    refine answers_bind₁ (iha h.1) fun x u hx _ => answers_bind₁ (ihb h.2) fun y v hy _ => answers_ok ?_
    rw [hx, hy]; rfl
  | sub a b iha ihb =>
    refine answers_bind₁ (iha h.1) fun x u hx _ => answers_bind₁ (ihb h.2) fun y v hy _ => answers_ok ?_
    rw [hx, hy]; rfl
  | neg a iha =>
    refine answers_bind₁ (iha h) fun x u hx _ => answers_ok ?_
    rw [hx]; rfl
  | div a b iha ihb =>
    refine answers_bind₁ (iha h.1) fun x u hx _ => answers_bind₁ (ihb h.2) fun y v hy _ => answers_ok ?_
    rw [hx, hy]; unfold gDiv gAdd gNeg; rw [sub_eq_add_neg]
  | exp a k iha =>
    refine answers_bind₁ (iha h.1) fun x u hx _ => answers_bind₁ (c96_residue hP k h.2) fun y v hy _ => answers_ok ?_
    unfold gPow
    rw [hx, smul_cast (P := P), hy.1]
  | expInt a k iha =>
    refine answers_bind₁ (iha h.1) fun x u hx _ => ?_
    unfold gPowInt gPow
    rw [zrInt_ok h.2.2, Res.bind_ok, val_nrm, hx, smul_cast (P := P)]
    exact answers_ok rfl

omit hP in
theorem tPow_eq (g : G) (k : Bn) : tPow g k = .ok (((k.val : Int) : ZMod P.r) • g) := by
  unfold tPow
  rw [zrInt_ok (by unfold isInt; norm_num), Res.bind_ok]
  split
  · next h =>
    have : k.val = -1 := by
      rw [cmp_eq_val (by unfold eq at h; simpa using h), val_nrm]
    rw [this]; simp [gNeg]
  · rw [smul_cast (P := P)]; rfl

/-- C96: programs of elements of `GT` compute what they mean. -/
theorem c96_target (e : GExpr G) (h : GLoose P e) : Answers (fun a b => a = b) (teval P e) (gden P e) := by
  induction e with
  | elem g => exact answers_ok rfl
  | add a b iha ihb =>
    refine answers_bind₁ (iha h.1) fun x u hx _ => answers_bind₁ (ihb h.2) fun y v hy _ => answers_ok ?_
    rw [hx, hy]; rfl
  | sub a b iha ihb =>
    refine answers_bind₁ (iha h.1) fun x u hx _ => answers_bind₁ (ihb h.2) fun y v hy _ => answers_ok ?_
    rw [hx, hy]; unfold tDiv gAdd; rw [sub_eq_add_neg]
  | neg a iha =>
    refine answers_bind₁ (iha h) fun x u hx _ => answers_ok ?_
    rw [hx]; rfl
  | div a b iha ihb =>
    refine answers_bind₁ (iha h.1) fun x u hx _ => answers_bind₁ (ihb h.2) fun y v hy _ => answers_ok ?_
    rw [hx, hy]; unfold tDiv gAdd; rw [sub_eq_add_neg]
  | exp a k iha =>
    refine answers_bind₁ (iha h.1) fun x u hx _ => answers_bind₁ (c96_residue hP k h.2) fun y v hy _ => ?_
    rw [tPow_eq (P := P), hx, hy.1]
    exact answers_ok rfl
  | expInt a k iha =>
    refine answers_bind₁ (iha h.1) fun x u hx _ => ?_
    unfold tPowInt
    rw [zrInt_ok h.2.2, Res.bind_ok, tPow_eq (P := P), val_nrm, hx]
    exact answers_ok rfl

end Groups

end Verif.Relic
