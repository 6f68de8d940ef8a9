import Verif.SetHash.LemmasGameB

/-! # C98: collisions of set hashes -/

namespace Verif.SetHash.Game

open Verif Verif.Avg

section
variable {A : Type} [AddCommGroup A] {C : Curve A} {ℓ : Nat} [Fact ℓ.Prime] {g : A}

/-- C98: an algorithm that finds two programs, with at most `q` hashes, whose set hashes compare equal although some string does not occur equally often
(modulo the order of the group) gives one that computes discrete logarithms with the same probability, up to the factor `1 - 1/ℓ` and the chance that
`n` attempts to find a hash with a known representation all fail, for each of the `q` hashes. -/
theorem c98_collision (hC : C.Ok) (hG : Gen C ℓ g) {inv : A → List (Block 32)} {K : Nat} (hI : Inverse C inv K) (n : Nat) {q : Nat} {D : Finset Bytes}
    {F : Finder} (hq : Few q F) (hD : Inside D F) :
    (1 - 1 / ℓ) * coll C ℓ D F ≤ advDl (ℓ := ℓ) g (reduce g inv K n F) + q * (1 - 256 ^ 32 / (ℓ * K)) ^ n :=
  coll_le hC hG hI n hq hD

/-! ## Claims that do not depend on the hash function -/

theorem val_congr {H H' : Bytes → Bytes} {m : Spec.MSet} (h : ∀ x, m (.inl x) ≠ 0 → H x = H' x) : val C H m = val C H' m := by
  unfold val
  refine Finsupp.sum_congr fun s hs => ?_
  cases s with
  | inl x => simp only [point, h x (Finsupp.mem_support_iff.1 hs)]
  | inr b => rfl

theorem val_split (H : Bytes → Bytes) (m : Spec.MSet) (x : Bytes) :
    val C H m = m (.inl x) • C.fromUniform ((H x).take 32) + val C H (m.erase (.inl x)) := by
  conv_lhs => rw [← Finsupp.single_add_erase (.inl x) m]
  rw [val_add]
  congr 1
  unfold val
  rw [Finsupp.sum_single_index (zero_zsmul _)]
  rfl

theorem smul_inj (hG : Gen C ℓ g) {n : ℤ} (hn : ¬ (ℓ : ℤ) ∣ n) {a b : A} (ha : a ∈ C.sub) (hb : b ∈ C.sub) (h : n • a = n • b) : a = b := by
  rw [← mul_lg hG ha, ← mul_lg hG hb] at h ⊢
  rw [mul_int hG.zero, mul_int hG.zero] at h
  have h1 := mul_inj hG h
  have h2 : (n : ZMod ℓ) ≠ 0 := fun h0 => hn ((ZMod.intCast_zmod_eq_zero_iff_dvd _ _).1 h0)
  rw [mul_left_cancel₀ h2 h1]

/-- C98: two programs that are fixed in advance collide with probability at most `K / 2 ^ 256`, if each point has at most `K` preimages. -/
theorem c98_fixed (hC : C.Ok) (hG : Gen C ℓ g) {inv : A → List (Block 32)} {K : Nat} (hI : Inverse C inv K) {D : Finset Bytes} {c : Claim}
    (hD : ∀ x ∈ strings c, x ∈ D) : coll C ℓ D (.out c) ≤ K / 2 ^ 256 := by
  have hK : (0 : ℚ) ≤ K / 2 ^ 256 := by positivity
  by_cases hd : Differ ℓ c
  swap
  · unfold coll
    have e : ∀ R, ind (Wins C ℓ (table D R) (result (table D R) (.out c))) = 0 := fun R => ind_false fun h => hd h.2
    simp only [e]
    rw [E_const]; exact hK
  obtain ⟨x, hx⟩ := hd.1
  have hxs : x ∈ strings c := diff_supp c x fun h => hx (by rw [h]; exact dvd_zero _)
  unfold coll
  rw [E_update (⟨x, hD x hxs⟩ : D) (fun R => ind (Wins C ℓ (table D R) (result (table D R) (.out c))))]
  have each : ∀ R : D → Block 32 × Block 32, E (fun y : Block 32 × Block 32 => ind (Wins C ℓ (table D (Function.update R ⟨x, hD x hxs⟩ y)) c)) ≤ K / 2 ^ 256 := by
    intro R
    by_cases hex : ∃ y, Wins C ℓ (table D (Function.update R ⟨x, hD x hxs⟩ y)) c
    · obtain ⟨y0, h0⟩ := hex
      have same : ∀ y, Wins C ℓ (table D (Function.update R ⟨x, hD x hxs⟩ y)) c → y.1 ∈ inv (pt C y0.1) := by
        intro y h
        have t : ∀ z : Block 32 × Block 32, (table D (Function.update R ⟨x, hD x hxs⟩ z) x).take 32 = toBytes z.1 := by
          intro z
          rw [table, dif_pos (hD x hxs), Function.update_self, two]
          exact List.take_left' (by simp [toBytes])
        have e1 := wins_val hC h
        have e2 := wins_val hC h0
        rw [val_split _ _ x, t] at e1 e2
        have e3 : val C (table D (Function.update R ⟨x, hD x hxs⟩ y)) ((diff c).erase (.inl x)) =
            val C (table D (Function.update R ⟨x, hD x hxs⟩ y0)) ((diff c).erase (.inl x)) := by
          refine val_congr fun z hz => ?_
          have hne : z ≠ x := by
            rintro rfl
            exact hz (Finsupp.erase_same)
          unfold table
          by_cases hzD : z ∈ D
          · rw [dif_pos hzD, dif_pos hzD, Function.update_of_ne (by simpa using hne), Function.update_of_ne (by simpa using hne)]
          · rw [dif_neg hzD, dif_neg hzD]
        rw [e3] at e1
        have e4 := add_right_cancel (e1.trans e2.symm)
        exact (hI.iff _ _).2 (smul_inj hG hx (hC.uniform_mem _) (hC.uniform_mem _) e4)
      have bound : E (fun y : Block 32 × Block 32 => ind (Wins C ℓ (table D (Function.update R ⟨x, hD x hxs⟩ y)) c)) ≤
          E (fun h : Block 32 => if (inv (pt C y0.1)).contains h then (1 : ℚ) else 0) := by
        rw [E_prod]
        refine E_mono fun h => ?_
        by_cases hm : h ∈ inv (pt C y0.1)
        · rw [if_pos (by simpa using hm)]
          exact E_le_one fun _ => ind_le _
        · rw [if_neg (by simpa using hm)]
          have e : ∀ b : Block 32, ind (Wins C ℓ (table D (Function.update R ⟨x, hD x hxs⟩ (h, b))) c) = 0 := fun b => ind_false fun hw => hm (same _ hw)
          simp only [e]
          rw [E_const]
      refine le_trans bound (le_trans (E_mem_le _) ?_)
      have hcard : (Fintype.card (Block 32) : ℚ) = 2 ^ 256 := by rw [card_block]; norm_num
      rw [hcard]
      exact div_le_div_of_nonneg_right (by exact_mod_cast hI.length _) (by positivity)
    · have e : ∀ y, ind (Wins C ℓ (table D (Function.update R ⟨x, hD x hxs⟩ y)) c) = 0 := fun y => ind_false fun h => hex ⟨y, h⟩
      simp only [e]
      rw [E_const]; exact hK
  have := E_mono each
  rwa [E_const] at this

/-! ## Vectors of strings -/

omit [Fact ℓ.Prime] in
theorem ofList_count (xs : List Bytes) (x : Bytes) : Spec.ofList xs (.inl x) = xs.count x := by
  induction xs with
  | nil => rfl
  | cons y xs ih =>
    have e : Spec.ofList (y :: xs) = Spec.elt y + Spec.ofList xs := by simp [Spec.ofList]
    rw [e, Finsupp.add_apply, ih, Spec.elt, Finsupp.single_apply, List.count_cons]
    by_cases h : y = x
    · subst h; simp; ring
    · rw [if_neg (by simpa using h)]; simp [h]

omit [Fact ℓ.Prime] in
theorem ofList_imports (xs : List Bytes) (b : Bytes) : Spec.ofList xs (.inr b) = 0 := by
  induction xs with
  | nil => rfl
  | cons y xs ih =>
    have e : Spec.ofList (y :: xs) = Spec.elt y + Spec.ofList xs := by simp [Spec.ofList]
    rw [e, Finsupp.add_apply, ih, Spec.elt, Finsupp.single_apply, if_neg (by simp)]
    rfl

omit [Fact ℓ.Prime] in
/-- C98 for the constructor from a vector: two vectors of fewer than `ℓ` strings count as different exactly if they are not permutations of each other. -/
theorem c98_vectors {xs ys : List Bytes} (hx : xs.length < ℓ) (hy : ys.length < ℓ) :
    Differ ℓ ⟨[.newVector xs], 0, [.newVector ys], 0⟩ ↔ ¬ xs.Perm ys := by
  have hd : ∀ z, diff ⟨[.newVector xs], 0, [.newVector ys], 0⟩ z = Spec.ofList xs z - Spec.ofList ys z := fun z => rfl
  have hcount : ∀ x, (ℓ : ℤ) ∣ (xs.count x : ℤ) - ys.count x ↔ xs.count x = ys.count x := by
    intro x
    have h1 : xs.count x < ℓ := lt_of_le_of_lt List.count_le_length hx
    have h2 : ys.count x < ℓ := lt_of_le_of_lt List.count_le_length hy
    constructor
    · intro h
      have := Int.eq_zero_of_abs_lt_dvd h (by rw [abs_lt]; omega)
      omega
    · intro h; rw [h, sub_self]; exact dvd_zero _
  constructor
  · rintro ⟨⟨x, hx⟩, _⟩ hp
    apply hx
    rw [hd, ofList_count, ofList_count, hp.count_eq, sub_self]
    exact dvd_zero _
  · intro hp
    refine ⟨?_, fun b => by rw [hd, ofList_imports, ofList_imports, sub_self]⟩
    by_contra hc
    push Not at hc
    refine hp (List.perm_iff_count.2 fun x => ?_)
    have := hc x
    rwa [hd, ofList_count, ofList_count, hcount] at this

/-! ## Where collisions are easy -/

omit [Fact ℓ.Prime] in
theorem run_append_ok {H : Bytes → Bytes} : ∀ (cs ds : List Call) (l l' : List Bytes), run C H l cs = some (.ok l') → run C H l (cs ++ ds) = run C H l' ds := by
  intro cs
  induction cs with
  | nil =>
    intro ds l l' h
    injection h with h
    injection h with h
    rw [h]; rfl
  | cons c cs ih =>
    intro ds l l' h
    rw [List.cons_append]
    simp only [run] at h ⊢
    cases hs : step C H l c with
    | none => simp [hs] at h
    | some r =>
      cases r with
      | ok l1 => simp only [hs, Option.bind_eq_bind, Option.bind_some] at h ⊢; exact ih ds l1 l' h
      | exc e => simp [hs] at h
      | ub => simp [hs] at h

/-- Doubling and adding. -/
def multiples (x : Bytes) (n : Nat) : List Call :=
  if h : n = 0 then [] else multiples x (n / 2) ++ (.addSet 0 0 :: if n % 2 = 1 then [.add 0 x] else [])
termination_by n
decreasing_by omega

/-- A program that puts `n` copies of a string into a set hash. -/
def times (x : Bytes) (n : Nat) : List Call := .new :: multiples x n

omit [Fact ℓ.Prime] in
theorem multiples_length (x : Bytes) : ∀ b n : Nat, n < 2 ^ b → (multiples x n).length ≤ 2 * b := by
  intro b
  induction b with
  | zero =>
    intro n h
    have : n = 0 := by omega
    subst this
    rw [multiples, dif_pos rfl]; simp
  | succ b ih =>
    intro n h
    rw [multiples]
    by_cases hn : n = 0
    · rw [dif_pos hn]; simp
    · rw [dif_neg hn]
      have := ih (n / 2) (by omega)
      simp only [List.length_append, List.length_cons]
      have : (if n % 2 = 1 then [Call.add 0 x] else []).length ≤ 1 := by split <;> simp
      omega

omit [Fact ℓ.Prime] in
theorem multiples_spec (x : Bytes) (n : Nat) : Spec.run [0] (multiples x n) = [n • Spec.elt x] := by
  induction n using Nat.strong_induction_on with
  | _ n ih =>
    rw [multiples]
    by_cases hn : n = 0
    · subst hn; rw [dif_pos rfl, zero_nsmul]; rfl
    · rw [dif_neg hn, Spec.run_append, ih (n / 2) (by omega)]
      by_cases h1 : n % 2 = 1
      · rw [if_pos h1]
        show [(n / 2) • Spec.elt x + (n / 2) • Spec.elt x + Spec.elt x] = _
        rw [← add_nsmul, ← succ_nsmul]
        congr 2; omega
      · rw [if_neg h1]
        show [(n / 2) • Spec.elt x + (n / 2) • Spec.elt x] = _
        rw [← add_nsmul]
        congr 2; omega

omit [Fact ℓ.Prime] in
theorem multiples_run (hC : C.Ok) (H : Bytes → Bytes) (x : Bytes) (n : Nat) :
    run C H [infinite] (multiples x n) = some (.ok [C.enc (n • C.fromUniform ((H x).take 32))]) := by
  induction n using Nat.strong_induction_on with
  | _ n ih =>
    rw [multiples]
    by_cases hn : n = 0
    · subst hn; rw [dif_pos rfl, zero_nsmul, hC.enc_zero]; rfl
    · rw [dif_neg hn, run_append_ok _ _ _ _ (ih (n / 2) (by omega))]
      have d : ∀ (a : A) (ds : List Call), run C H [C.enc a] (.addSet 0 0 :: ds) = run C H [C.enc (a + a)] ds := by
        intro a ds
        simp [run, step, addSet, put, edAdd_enc hC]
      have e : ∀ a : A, run C H [C.enc a] [.add 0 x] = some (.ok [C.enc (a + C.fromUniform ((H x).take 32))]) := by
        intro a
        simp [run, step, addElement, genCurvePoint_eq, put, edAdd_enc hC]
      by_cases h1 : n % 2 = 1
      · rw [if_pos h1, d, e, ← add_nsmul, ← succ_nsmul]
        congr 5; omega
      · rw [if_neg h1, d, ← add_nsmul]
        show some (Res.ok [_]) = _
        congr 5; omega

omit [Fact ℓ.Prime] in
theorem times_run (hC : C.Ok) (H : Bytes → Bytes) (x : Bytes) (n : Nat) :
    run C H [] (times x n) = some (.ok [C.enc (n • C.fromUniform ((H x).take 32))]) := by
  rw [← multiples_run hC]
  simp [times, run, step]

omit [Fact ℓ.Prime] in
theorem times_spec (x : Bytes) (n : Nat) : Spec.run [] (times x n) = [n • Spec.elt x] := by
  rw [← multiples_spec]; rfl

/-- Finding: the set hash counts modulo the order of the group, whatever the hash function.  As `add_set` may be applied to the object itself, a short
program reaches that many copies: with at most `2 b + 1` calls (507 for the curve of libsodium) a set hash of `ℓ` copies of a string compares equal to an empty one. -/
theorem c98_multiples_false (hC : C.Ok) (hG : Gen C ℓ g) (H : Bytes → Bytes) (x : Bytes) {b : Nat} (hb : ℓ < 2 ^ b) :
    ∃ cs : List Call, cs.length ≤ 2 * b + 1 ∧ Equal C H ⟨cs, 0, [.new], 0⟩ ∧ diff ⟨cs, 0, [.new], 0⟩ (.inl x) = ℓ := by
  refine ⟨times x ℓ, ?_, ?_, ?_⟩
  · have := multiples_length x b ℓ hb
    rw [times, List.length_cons]; omega
  · refine ⟨_, [infinite], _, infinite, times_run hC H x ℓ, rfl, rfl, rfl, ?_⟩
    have : ℓ • C.fromUniform ((H x).take 32) = 0 := by
      rw [← mul_lg hG (hC.uniform_mem ((H x).take 32)), mul, smul_comm, hG.zero, nsmul_zero]
    rw [this, hC.enc_zero, equal, beq_self_eq_true]
  · unfold diff
    rw [times_spec]
    simp [Spec.run, Spec.step, Spec.elt]

/-- C98, conversely: with the logarithms of the points of two strings there is a collision, whatever the hash function. -/
theorem c98_logarithms (hC : C.Ok) (hG : Gen C ℓ g) (H : Bytes → Bytes) {x y : Bytes} (hxy : x ≠ y) {r s : ZMod ℓ}
    (hr : C.fromUniform ((H x).take 32) = mul g r) (hs : C.fromUniform ((H y).take 32) = mul g s) (h0 : r ≠ 0) :
    Wins C ℓ H ⟨times x s.val, 0, times y r.val, 0⟩ := by
  have hd : ∀ z, diff ⟨times x s.val, 0, times y r.val, 0⟩ z = (s.val • Spec.elt x) z - (r.val • Spec.elt y) z := by
    intro z
    unfold diff
    rw [times_spec, times_spec]; rfl
  refine ⟨⟨_, _, _, _, times_run hC H x _, times_run hC H y _, rfl, rfl, ?_⟩, ⟨y, ?_⟩, fun b => ?_⟩
  · rw [hr, hs]
    have : s.val • mul g r = r.val • mul g s := by
      rw [mul, mul, smul_comm]
    rw [this, equal, beq_self_eq_true]
  · rw [hd]
    have e : (s.val • Spec.elt x) (.inl y) - (r.val • Spec.elt y) (.inl y) = -(r.val : ℤ) := by
      simp [Spec.elt, hxy]
    rw [e, dvd_neg]
    intro hdv
    have h1 := Int.natCast_dvd_natCast.1 hdv
    have h2 := ZMod.val_lt r
    have h3 : r.val ≠ 0 := fun h => h0 ((ZMod.val_eq_zero r).1 h)
    exact h3 (Nat.eq_zero_of_dvd_of_lt h1 h2)
  · rw [hd]
    simp [Spec.elt]
end

/-! ## The group of seven elements -/

theorem seven : Nat.Prime 7 := by decide
instance : Fact (Nat.Prime 7) := ⟨seven⟩

theorem toyGen : Gen toyC 7 (1 : ZMod 7) where
  zero := by decide
  ne := by decide
  mem := trivial
  all a _ := ⟨a, (by decide : ∀ a : ZMod 7, a = mul (1 : ZMod 7) a) a⟩

/-- All strings that are mapped to a point. -/
noncomputable def toyInv (a : ZMod 7) : List (Block 32) := (Finset.univ.filter fun h : Block 32 => toyC.fromUniform (toBytes h) = a).toList

theorem toyInv_ok : Inverse toyC toyInv (256 ^ 32) where
  iff h a := by unfold toyInv; rw [Finset.mem_toList, Finset.mem_filter, and_iff_right (Finset.mem_univ _)]
  nodup a := Finset.nodup_toList _
  length a := by
    unfold toyInv
    rw [Finset.length_toList, ← card_block]
    exact Finset.card_le_univ _

/-- Asks for one hash and claims that an element is the empty set if the hash is a multiple of seven. -/
def toyFinder : Finder := .ask [5] fun y => .out (if (y.headD 0).toNat % 7 = 0 then ⟨[.new, .add 0 [5]], 0, [.new], 0⟩ else ⟨[.new, .add 0 [5]], 0, [.new, .add 0 [4]], 0⟩)

example (n : Nat) : (1 - 1 / (7 : Nat)) * coll toyC 7 {[5], [4]} toyFinder ≤
    advDl (ℓ := 7) 1 (reduce 1 toyInv (256 ^ 32) n toyFinder) + (3 : Nat) * (1 - 256 ^ 32 / ((7 : Nat) * (256 ^ 32 : Nat))) ^ n := by
  refine c98_collision toyC_ok toyGen toyInv_ok n (q := 3) ?_ ?_
  · intro y
    show (strings _).length ≤ 2
    split <;> simp [strings, callStrings]
  · refine ⟨by simp, fun y x hx => ?_⟩
    split at hx <;> simp [strings, callStrings] at hx <;> simp [hx]

example : coll toyC 7 {[5]} (.out ⟨[.new, .add 0 [5]], 0, [.new], 0⟩) ≤ (256 ^ 32 : Nat) / 2 ^ 256 :=
  c98_fixed toyC_ok toyGen toyInv_ok (by simp [strings, callStrings])

example : Differ 7 ⟨[.newVector [[5], [4], [5]]], 0, [.newVector [[4], [4], [5]]], 0⟩ :=
  (c98_vectors (by decide) (by decide)).2 (by decide)

example : ∃ cs : List Call, cs.length ≤ 7 ∧ Equal toyC toyHash ⟨cs, 0, [.new], 0⟩ ∧ diff ⟨cs, 0, [.new], 0⟩ (.inl [5]) = 7 :=
  c98_multiples_false toyC_ok toyGen toyHash [5] (b := 3) (by decide)

example : Wins toyC 7 toyHash ⟨times [5] 3, 0, times [3] 5, 0⟩ :=
  c98_logarithms toyC_ok toyGen toyHash (r := 5) (s := 3) (by decide) (by decide) (by decide) (by decide)

end Verif.SetHash.Game
