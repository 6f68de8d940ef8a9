import Verif.Aez.SideWide
import Mathlib.Logic.Equiv.Basic
import Mathlib.Logic.Equiv.Set
import Mathlib.Tactic.FieldSimp

/-!
# Random tables give wide permutations that look random
-/

namespace Verif.AezWide

open Verif Verif.Avg Verif.Oracle Verif.AezRandom Verif.Wide Verif.Fresh

/-! ## Some values of a uniform function -/

theorem E_proj {κ δ X : Type} [Fintype κ] [DecidableEq κ] [Fintype δ] [DecidableEq δ] [Fintype X] [Nonempty X] {c : κ → δ} (hc : Function.Injective c)
    (F : (κ → X) → ℚ) : E (fun ρ : δ → X => F (fun k => ρ (c k))) = E F := by
  classical
  let e := Equiv.piEquivPiSubtypeProd (fun a => a ∈ Set.range c) (fun _ : δ => X)
  rw [← E_equiv e.symm (fun ρ : δ → X => F (fun k => ρ (c k))), E_prod]
  let r := Equiv.ofInjective c hc
  have h : ∀ (g : { a // a ∈ Set.range c } → X) (g' : { a // a ∉ Set.range c } → X), (fun k => e.symm (g, g') (c k)) = fun k => g (r k) := by
    intro g g'
    funext k
    show (Equiv.piEquivPiSubtypeProd (fun a => a ∈ Set.range c) (fun _ : δ => X)).symm (g, g') (c k) = g (r k)
    unfold Equiv.piEquivPiSubtypeProd
    simp only [Equiv.coe_fn_symm_mk]
    rw [dif_pos ⟨k, rfl⟩]
    rfl
  simp only [h]
  have h' : ∀ g : { a // a ∈ Set.range c } → X, E (fun _ : { a // a ∉ Set.range c } → X => F (fun k => g (r k))) = F (fun k => g (r k)) :=
    fun g => E_const _
  refine (congrArg E (funext h')).trans ?_
  exact E_equiv (Equiv.arrowCongr r.symm (Equiv.refl X)) F

theorem prob_proj {κ δ X : Type} [Fintype κ] [DecidableEq κ] [Fintype δ] [DecidableEq δ] [Fintype X] [Nonempty X] {c : κ → δ} (hc : Function.Injective c)
    (p : (κ → X) → Prop) : prob (fun ρ : δ → X => p (fun k => ρ (c k))) = prob p :=
  E_proj hc (fun g => @ite ℚ (p g) (Classical.propDecidable _) 1 0)

/-! ## The table and the functions -/

section
variable {ℓ : Nat}

/-- The index of a function. -/
def code : Tag ℓ → Fin (2 * ℓ + 18)
  | .e => ⟨0, by omega⟩
  | .f false => ⟨1, by omega⟩
  | .f true => ⟨2, by omega⟩
  | .u => ⟨4, by omega⟩
  | .v => ⟨5, by omega⟩
  | .g false => ⟨9, by omega⟩
  | .g true => ⟨10, by omega⟩
  | .cu => ⟨12, by omega⟩
  | .cv => ⟨13, by omega⟩
  | .h j => ⟨18 + 2 * j.1, by have := j.2; omega⟩
  | .k j => ⟨19 + 2 * j.1, by have := j.2; omega⟩

theorem tag_code (t : Tag ℓ) : tag (code t).1 = t := by
  cases t with
  | f d => cases d <;> rfl
  | g d => cases d <;> rfl
  | h j =>
    have := tag_h (ℓ := ℓ) (i := j.1 + 1) (by omega) j.2
    rw [show 16 + 2 * (j.1 + 1) = 18 + 2 * j.1 by ring] at this
    exact this
  | k j =>
    have := tag_k (ℓ := ℓ) (i := j.1 + 1) (by omega) j.2
    rw [show 17 + 2 * (j.1 + 1) = 19 + 2 * j.1 by ring] at this
    exact this
  | e => exact tag_0
  | _ => rfl

noncomputable def place (a : Tag ℓ × V) : Fin (2 * ℓ + 18) × Fin (2 ^ 128) := (code a.1, blocks.symm a.2)

theorem place_inj : Function.Injective (place (ℓ := ℓ)) := by
  rintro ⟨t, v⟩ ⟨t', v'⟩ h
  injection h with h1 h2
  have h1 : code t = code t' := h1
  have h2 : blocks.symm v = blocks.symm v' := h2
  rw [← tag_code t, h1, tag_code, blocks.symm.injective h2]

/-- The functions of a table. -/
noncomputable def fns (ρ : Table ℓ) : Fn ℓ V := fun a => blocks (ρ (place a))

theorem E_fns (F : Fn ℓ V → ℚ) : E (fun ρ : Table ℓ => F (fns ρ)) = E F := by
  have h := E_proj (X := Fin (2 ^ 128)) (place_inj (ℓ := ℓ)) (fun g => F (fun a => blocks (g a)))
  refine Eq.trans ?_ (h.trans (E_equiv (Equiv.arrowCongr (Equiv.refl _) blocks) F))
  rfl

/-- The functions that AEZ-core asks. -/
def Used (ℓ t : Nat) : Prop := t = 0 ∨ t = 1 ∨ t = 2 ∨ t = 4 ∨ t = 5 ∨ t = 9 ∨ t = 10 ∨ t = 12 ∨ t = 13 ∨ ∃ i, 1 ≤ i ∧ i ≤ ℓ ∧ (t = 16 + 2 * i ∨ t = 17 + 2 * i)

theorem code_tag {t : Nat} (h : Used ℓ t) : (code (tag (ℓ := ℓ) t)).1 = t := by
  rcases h with rfl | rfl | rfl | rfl | rfl | rfl | rfl | rfl | rfl | ⟨i, h1, h2, rfl | rfl⟩
  · rw [tag_0]; rfl
  · rfl
  · rfl
  · rfl
  · rfl
  · rfl
  · rfl
  · rfl
  · rfl
  · rw [tag_h h1 h2]
    show 18 + 2 * (i - 1) = _
    omega
  · rw [tag_k h1 h2]
    show 19 + 2 * (i - 1) = _
    omega

theorem look_fns (ρ : Table ℓ) {t x : Nat} (ht : Used ℓ t) (hx : x < 2 ^ 128) : onNum (fns ρ) (t, x) = look ρ (t, x) := by
  have e : (blocks.symm (bits x)) = ⟨x, hx⟩ := Fin.ext (num_bits hx)
  have e2 : place (tag (ℓ := ℓ) t, bits x) = (⟨t % (2 * ℓ + 18), Nat.mod_lt _ (Nat.succ_pos _)⟩, ⟨x % 2 ^ 128, Nat.mod_lt _ (Nat.two_pow_pos 128)⟩) := by
    refine Prod.ext ?_ ?_
    · apply Fin.ext
      show (code (tag t)).1 = t % (2 * ℓ + 18)
      have := (code (tag (ℓ := ℓ) t)).2
      rw [code_tag ht] at this ⊢
      exact (Nat.mod_eq_of_lt this).symm
    · show blocks.symm (bits x) = _
      rw [e]
      exact Fin.ext (Nat.mod_eq_of_lt hx).symm
  unfold onNum look num
  show (blocks.symm (blocks (ρ (place (tag t, bits x))))).1 = _
  rw [Equiv.symm_apply_apply, e2]

theorem look_lt (ρ : Table ℓ) (a : Nat × Nat) : look ρ a < 2 ^ 128 := (ρ _).2

/-- AEZ-core asks those functions only. -/
theorem coreT_congr {T T' : Nat × Nat → Nat} (hT : ∀ a, T a < 2 ^ 128) (h : ∀ t x, Used ℓ t → x < 2 ^ 128 → T' (t, x) = T (t, x))
    {a b : Nat} (hab : a = 1 ∧ b = 2 ∨ a = 2 ∧ b = 1) {M : Bytes} (h32 : 32 ≤ M.length) (hM : M.length < 32 * ℓ + 64) : coreT T' a b M = coreT T a b M := by
  have hp := pairs_le hM
  have U1 : ∀ i, 1 ≤ i → i ≤ AezSpec.pairs M → Used ℓ (16 + 2 * i) := fun i h1 h2 =>
    .inr (.inr (.inr (.inr (.inr (.inr (.inr (.inr (.inr ⟨i, h1, le_trans h2 hp, .inl rfl⟩))))))))
  have U2 : ∀ i, 1 ≤ i → i ≤ AezSpec.pairs M → Used ℓ (17 + 2 * i) := fun i h1 h2 =>
    .inr (.inr (.inr (.inr (.inr (.inr (.inr (.inr (.inr ⟨i, h1, le_trans h2 hp, .inr rfl⟩))))))))
  have U : ∀ t, t = 0 ∨ t = 1 ∨ t = 2 ∨ t = 4 ∨ t = 5 ∨ t = 9 ∨ t = 10 ∨ t = 12 ∨ t = 13 → Used ℓ t := fun t h => by
    unfold Used
    rcases h with h | h | h | h | h | h | h | h | h <;> simp [h]
  have hpad : ∀ u : Bytes, u.length ≤ 15 → AezSpec.pad10 u < 2 ^ 128 := fun u hu => by
    unfold AezSpec.pad10
    refine beNat_lt' (n := 16) ?_
    rw [List.length_append, List.length_cons, List.length_replicate]
    omega
  have hbe : ∀ u : Bytes, u.length ≤ 16 → beNat u < 2 ^ 128 := fun u hu => by
    refine lt_of_lt_of_le (beNat_lt' (n := u.length) rfl) (Nat.pow_le_pow_right (by decide) (by omega))
  have hr : M.length % 32 < 32 := Nat.mod_lt _ (by decide)
  have huv : ∀ u v : Bytes, u.length = min 16 (M.length % 32) → v.length = M.length % 32 - 16 → uvT T' M.length u v = uvT T M.length u v := by
    intro u v hu hv
    unfold uvT
    split
    · rfl
    · split
      · exact h _ _ (U _ (by omega)) (hpad u (by omega))
      · rw [h _ _ (U _ (by omega)) (hbe u (by omega)), h _ _ (U _ (by omega)) (hpad v (by omega))]
  have e1 : ∀ i, 1 ≤ i → i ≤ AezSpec.pairs M → wT T' M i = wT T M i := fun i h1 h2 => by
    unfold wT
    rw [h _ _ (U1 i h1 h2) (block_lt _ _)]
  have e2 : ∀ i, 1 ≤ i → i ≤ AezSpec.pairs M → xT T' M i = xT T M i := fun i h1 h2 => by
    unfold xT
    rw [e1 i h1 h2, h _ _ (U _ (by omega)) (wT_lt hT _ _)]
  have e4 : sxT T' a M = sxT T a M := by
    unfold sxT
    rw [xorSum_congr e2, huv _ _ (uPart_len h32) (vPart_len h32), h _ _ (U _ (by omega)) (block_lt _ _)]
  have e5 : syT T' a M = syT T a M := by
    unfold syT
    rw [e4, h _ _ (U _ (by omega)) (sxT_lt hT _ _)]
  have e6 : sT T' a M = sT T a M := by
    unfold sT
    rw [e4, e5]
  have hs : sT T a M < 2 ^ 128 := Nat.xor_lt_two_pow (sxT_lt hT _ _) (syT_lt hT _ _)
  have e7 : ∀ i, 1 ≤ i → i ≤ AezSpec.pairs M → yT T' a M i = yT T a M i := fun i h1 h2 => by
    unfold yT
    rw [e1 i h1 h2, e6, h _ _ (U2 i h1 h2) hs]
  have e8 : ∀ i, 1 ≤ i → i ≤ AezSpec.pairs M → zT T' a M i = zT T a M i := fun i h1 h2 => by
    unfold zT
    rw [e2 i h1 h2, e6, h _ _ (U2 i h1 h2) hs]
  have e9 : ∀ i, 1 ≤ i → i ≤ AezSpec.pairs M → c1T T' a M i = c1T T a M i := fun i h1 h2 => by
    unfold c1T
    rw [e7 i h1 h2, e8 i h1 h2, h _ _ (U _ (by omega)) (zT_lt hT _ _ _)]
  have e10 : ∀ i, 1 ≤ i → i ≤ AezSpec.pairs M → c0T T' a M i = c0T T a M i := fun i h1 h2 => by
    unfold c0T
    rw [e8 i h1 h2, e9 i h1 h2, h _ _ (U1 i h1 h2) (c1T_lt hT _ _ _)]
  have e11 : cuT T' a M = cuT T a M := by
    unfold cuT
    rw [e6, h _ _ (U _ (by omega)) hs]
  have e12 : cvT T' a M = cvT T a M := by
    unfold cvT
    rw [e6, h _ _ (U _ (by omega)) hs]
  have e13 : cyT T' a b M = cyT T a b M := by
    unfold cyT
    rw [e4, e5, h _ _ (U _ (by omega)) (syT_lt hT _ _)]
  have e14 : cxT T' a b M = cxT T a b M := by
    unfold cxT
    rw [e5, xorSum_congr e7, e11, e12, e13, huv _ _ (cuT_len h32 a) (cvT_len h32 a), h _ _ (U _ (by omega)) (cyT_lt hT _ _ _)]
  unfold coreT
  rw [e11, e12, e13, e14]
  exact asm_congr (fun i h1 h2 => by rw [e9 i h1 h2, e10 i h1 h2]) _ _ _ _

/-! ## The permutations -/

abbrev W (n : Len ℓ) : Type := Block n.1.1

theorem bytes_long {n : Len ℓ} (b : W n) : 32 ≤ (toBytes b).length ∧ (toBytes b).length < 32 * ℓ + 64 := by
  rw [toBytes_len]
  exact ⟨n.2, n.1.2⟩

noncomputable def perms (ω : Fn ℓ V) : Fam (W (ℓ := ℓ)) := fun n =>
  { toFun := fun b => ofBytes _ (coreT (onNum ω) 1 2 (toBytes b))
    invFun := fun b => ofBytes _ (coreT (onNum ω) 2 1 (toBytes b))
    left_inv := fun b => by
      have h := (bytes_long b).1
      beta_reduce
      rw [toBytes_ofBytes (by rw [coreT_length 1 2 h, toBytes_len]), core_core (onNum_lt ω) 1 2 h, ofBytes_toBytes]
    right_inv := fun b => by
      have h := (bytes_long b).1
      beta_reduce
      rw [toBytes_ofBytes (by rw [coreT_length 2 1 h, toBytes_len]), core_core (onNum_lt ω) 2 1 h, ofBytes_toBytes] }

/-- The same attack, with the lengths apart. -/
def onLen (ℓ : Nat) : Att Ask Bytes → Att (Bool × Str (W (ℓ := ℓ))) (Str (W (ℓ := ℓ)))
  | .done b => .done b
  | .ask a c =>
    if h : 32 ≤ a.2.length ∧ a.2.length < 32 * ℓ + 64 then
      .ask (a.1, ⟨⟨⟨a.2.length, h.2⟩, h.1⟩, ofBytes _ a.2⟩) fun r => onLen ℓ (c (toBytes r.2))
    else .done false

theorem atMost_onLen {q : Nat} {A : Att Ask Bytes} (hA : AtMost q A) : AtMost q (onLen ℓ A) := by
  induction hA with
  | done b => exact .done b
  | @ask q a c _ ih =>
    unfold onLen
    split
    · exact .ask fun r => ih _
    · exact .done false

theorem play_onLen (P : Fam (W (ℓ := ℓ))) {F : Ask → Bytes} (hF : ∀ a, Long ℓ a → F a = permAnswer P a) {A : Att Ask Bytes} (hA : Asks (Long ℓ) A) :
    play (ans P) (onLen ℓ A) = play F A := by
  induction hA with
  | done b => rfl
  | @ask a c ha _ ih =>
    unfold onLen
    rw [dif_pos (show _ ∧ _ from ha)]
    show play (ans P) (onLen ℓ (c _)) = play F (c (F a))
    rw [ih, hF a ha]
    congr 2
    obtain ⟨d, s⟩ := a
    unfold permAnswer
    rw [dif_pos (show _ ∧ _ from ha)]
    rfl

theorem perms_answer (ω : Fn ℓ V) {a : Ask} (ha : Long ℓ a) : cipherT (onNum ω) a = permAnswer (perms ω) a := by
  obtain ⟨d, s⟩ := a
  have h32 : 32 ≤ s.length := ha.1
  unfold permAnswer cipherT
  rw [dif_pos (show _ ∧ _ from ha)]
  cases d
  · show _ = toBytes (ofBytes _ (coreT (onNum ω) 1 2 (toBytes (ofBytes _ s))))
    rw [toBytes_ofBytes (rfl : s.length = s.length), toBytes_ofBytes (coreT_length 1 2 h32)]
    rfl
  · show _ = toBytes (ofBytes _ (coreT (onNum ω) 2 1 (toBytes (ofBytes _ s))))
    rw [toBytes_ofBytes (rfl : s.length = s.length), toBytes_ofBytes (coreT_length 2 1 h32)]
    rfl

theorem cipher_fns (ρ : Table ℓ) {a : Ask} (ha : Long ℓ a) : cipherT (look ρ) a = cipherT (onNum (fns ρ)) a := by
  unfold cipherT
  split
  · exact (coreT_congr (look_lt ρ) (fun t x ht hx => look_fns ρ ht hx) (.inr ⟨rfl, rfl⟩) ha.1 ha.2).symm
  · exact (coreT_congr (look_lt ρ) (fun t x ht hx => look_fns ρ ht hx) (.inl ⟨rfl, rfl⟩) ha.1 ha.2).symm

/-! ## Strings are determined by their parts -/

theorem zeros_inj : ∀ {a b : Nat} {x y : Bytes}, List.replicate a 0 ++ 0x80 :: x = List.replicate b 0 ++ 0x80 :: y → x = y
  | 0, 0, _, _, h => (List.cons.inj h).2
  | 0, b + 1, _, _, h => by
    rw [List.replicate_succ] at h
    exact absurd (List.cons.inj h).1 (by decide)
  | a + 1, 0, _, _, h => by
    rw [List.replicate_succ] at h
    exact absurd (List.cons.inj h).1 (by decide)
  | a + 1, b + 1, _, _, h => by
    rw [List.replicate_succ, List.replicate_succ] at h
    exact zeros_inj (List.cons.inj h).2

theorem beNat_inj {s t : Bytes} (h : s.length = t.length) (e : beNat s = beNat t) : s = t := by
  rw [← beBytes_beNat s, ← beBytes_beNat t, h, e]

theorem pad10_inj {u u' : Bytes} (hu : u.length ≤ 15) (hu' : u'.length ≤ 15) (h : AezSpec.pad10 u = AezSpec.pad10 u') : u = u' := by
  unfold AezSpec.pad10 at h
  have h := beNat_inj (by simp only [List.length_append, List.length_cons, List.length_replicate]; omega) h
  have h := congrArg List.reverse h
  rw [List.reverse_append, List.reverse_append, List.reverse_cons, List.reverse_cons, List.reverse_replicate, List.reverse_replicate, List.append_assoc,
    List.append_assoc] at h
  exact List.reverse_injective (zeros_inj h)

theorem pad10_lt {u : Bytes} (hu : u.length ≤ 15) : AezSpec.pad10 u < 2 ^ 128 := by
  unfold AezSpec.pad10
  refine beNat_lt' (n := 16) ?_
  rw [List.length_append, List.length_cons, List.length_replicate]
  omega

theorem side_pairs {M M' : Bytes} (h : M.length < 32 * ℓ + 64) (e : side ℓ M = side ℓ M') : AezSpec.pairs M ≤ AezSpec.pairs M' := by
  by_contra hlt
  push Not at hlt
  have hj := pairs_le h
  have e1 := congrFun (congrArg Side.blk e) ⟨AezSpec.pairs M', by omega⟩
  rw [blk_side (M := M) hlt] at e1
  have e2 : (side ℓ M').blk ⟨AezSpec.pairs M', by omega⟩ = none := if_neg (lt_irrefl _)
  rw [e2] at e1
  cases e1

theorem side_inj {M M' : Bytes} (h32 : 32 ≤ M.length) (h : M.length < 32 * ℓ + 64) (h32' : 32 ≤ M'.length) (h' : M'.length < 32 * ℓ + 64)
    (e : side ℓ M = side ℓ M') : M = M' := by
  have hp : AezSpec.pairs M = AezSpec.pairs M' := le_antisymm (side_pairs h e) (side_pairs h' e.symm)
  have hx : AezSpec.block M (M.length - 32) = AezSpec.block M' (M'.length - 32) := bits_inj (block_lt _ _) (block_lt _ _) (congrArg Side.x e)
  have hy : AezSpec.block M (M.length - 16) = AezSpec.block M' (M'.length - 16) := bits_inj (block_lt _ _) (block_lt _ _) (congrArg Side.y e)
  have hu := uPart_len h32
  have hv := vPart_len h32
  have hu' := uPart_len h32'
  have hv' := vPart_len h32'
  have eu := congrArg Side.u e
  have ev := congrArg Side.v e
  have hb : ∀ i, 1 ≤ i → i ≤ AezSpec.pairs M → AezSpec.block M (32 * (i - 1)) = AezSpec.block M' (32 * (i - 1)) ∧
      AezSpec.block M (32 * (i - 1) + 16) = AezSpec.block M' (32 * (i - 1) + 16) := by
    intro i h1 h2
    have hi := pairs_le h
    have eb := congrFun (congrArg Side.blk e) ⟨i - 1, by omega⟩
    rw [blk_side (M := M) (show i - 1 < _ by omega), blk_side (M := M') (show i - 1 < _ by omega)] at eb
    injection eb with eb
    injection eb with b1 b2
    exact ⟨bits_inj (block_lt _ _) (block_lt _ _) b1, bits_inj (block_lt _ _) (block_lt _ _) b2⟩
  have hr : M.length % 32 < 32 := Nat.mod_lt _ (by decide)
  have hr' : M'.length % 32 < 32 := Nat.mod_lt _ (by decide)
  have lt16 : ∀ {u : Bytes}, u.length = 16 → beNat u < 2 ^ 128 := fun hu => beNat_lt' hu
  have huv : AezSpec.uPart M = AezSpec.uPart M' ∧ AezSpec.vPart M = AezSpec.vPart M' := by
    unfold side at eu ev
    simp only at eu ev
    by_cases c : M.length % 32 < 16
    · by_cases c' : M'.length % 32 < 16
      · have nv : AezSpec.vPart M = [] := List.eq_nil_of_length_eq_zero (by omega)
        have nv' : AezSpec.vPart M' = [] := List.eq_nil_of_length_eq_zero (by omega)
        refine ⟨?_, by rw [nv, nv']⟩
        by_cases z : M.length % 32 = 0
        · by_cases z' : M'.length % 32 = 0
          · rw [List.eq_nil_of_length_eq_zero (l := AezSpec.uPart M) (by omega), List.eq_nil_of_length_eq_zero (l := AezSpec.uPart M') (by omega)]
          · rw [if_pos z, if_neg z', if_pos c'] at eu
            cases eu
        · by_cases z' : M'.length % 32 = 0
          · rw [if_neg z, if_pos z', if_pos c] at eu
            cases eu
          · rw [if_neg z, if_neg z', if_pos c, if_pos c'] at eu
            injection eu with eu
            exact pad10_inj (by omega) (by omega) (bits_inj (pad10_lt (by omega)) (pad10_lt (by omega)) eu)
      · rw [if_pos c, if_neg c'] at ev
        cases ev
    · by_cases c' : M'.length % 32 < 16
      · rw [if_neg c, if_pos c'] at ev
        cases ev
      · rw [if_neg c, if_neg c'] at ev
        rw [if_neg (show ¬ M.length % 32 = 0 by omega), if_neg c, if_neg (show ¬ M'.length % 32 = 0 by omega), if_neg c'] at eu
        injection eu with eu
        injection ev with ev
        exact ⟨beNat_inj (by omega) (bits_inj (lt16 (by omega)) (lt16 (by omega)) eu),
          pad10_inj (by omega) (by omega) (bits_inj (pad10_lt (by omega)) (pad10_lt (by omega)) ev)⟩
  rw [← asm_parts h32, ← asm_parts h32', huv.1, huv.2, hx, hy, ← hp]
  exact asm_congr (fun i h1 h2 => by rw [(hb i h1 h2).1, (hb i h1 h2).2]) _ _ _ _

theorem toBytes_inj {n n' : Len ℓ} {a : W n} {a' : W n'} (h : toBytes a = toBytes a') : (⟨n, a⟩ : Str (W (ℓ := ℓ))) = ⟨n', a'⟩ := by
  have hl := congrArg List.length h
  rw [toBytes_len, toBytes_len] at hl
  have hn : n = n' := Subtype.ext (Fin.ext hl)
  subst hn
  rw [← ofBytes_toBytes a, h, ofBytes_toBytes]

/-! ## How probable the parts of a uniform string are -/

theorem toBytes_get {n : Nat} (b : Block n) (i : Nat) (h : i < (toBytes b).length) : (toBytes b)[i] = b ⟨i, by rwa [toBytes_len] at h⟩ := List.getElem_ofFn h

theorem prob_block {n o : Nat} (h : o + 16 ≤ n) (z : V) : prob (fun b : Block n => bits (AezSpec.block (toBytes b) o) = z) ≤ 1 / Fintype.card V := by
  let c : Fin 16 → Fin n := fun i => ⟨o + i.1, by have := i.2; omega⟩
  have hc : Function.Injective c := by
    intro i j hij
    have : o + i.1 = o + j.1 := congrArg Fin.val hij
    exact Fin.ext (by omega)
  have e : ∀ b : Block n, AezSpec.block (toBytes b) o = beNat (toBytes fun i => b (c i)) := by
    intro b
    unfold AezSpec.block
    congr 1
    apply List.ext_getElem
    · rw [List.length_take, List.length_drop, toBytes_len, toBytes_len]; omega
    · intro i h1 h2
      rw [List.getElem_take, List.getElem_drop, toBytes_get, toBytes_get]
  simp only [e]
  rw [prob_proj hc (fun g : Block 16 => bits (beNat (toBytes g)) = z)]
  have h1 : prob (fun g : Block 16 => bits (beNat (toBytes g)) = z) ≤ prob (fun g : Block 16 => g ∈ ({ofBytes 16 (beBytes 16 (num z))} : Finset (Block 16))) := by
    apply prob_mono
    intro g hg
    rw [Finset.mem_singleton, ← hg, num_bits (beNat_lt' (n := 16) (toBytes_len g)), beBytes_beNat'' (toBytes_len g), ofBytes_toBytes]
  refine le_trans h1 ?_
  rw [prob_mem, Finset.card_singleton, card_block, card_V, pow_256, Nat.cast_one]

/-- Enough values change a partial block as required. -/
theorem masks_card {a b : Bytes} (h : a.length = b.length) (ha : a.length ≤ 16) : 256 ^ (16 - a.length) ≤ (masks a b).card := by
  have hx : (AezSpec.xorBytes a b).length = a.length := by
    unfold AezSpec.xorBytes
    rw [List.length_zipWith]
    omega
  have hl : ∀ c : Block (16 - a.length), (AezSpec.xorBytes a b ++ toBytes c).length = 16 := by
    intro c
    rw [List.length_append, toBytes_len, hx]
    omega
  have hxx : ∀ {a b c : Bytes}, a.length = b.length → AezSpec.xorBytes a (AezSpec.xorBytes a b ++ c) = b := by
    intro a
    induction a with
    | nil =>
      intro b c h
      rw [List.eq_nil_of_length_eq_zero h.symm]
      rfl
    | cons x a ih =>
      intro b c h
      cases b with
      | nil => cases h
      | cons y b =>
        show (x ^^^ (x ^^^ y)) :: AezSpec.xorBytes a (AezSpec.xorBytes a b ++ c) = y :: b
        rw [ih (Nat.succ.inj h), ← UInt8.xor_assoc, UInt8.xor_self, UInt8.zero_xor]
  rw [← card_block, ← Finset.card_univ]
  refine Finset.card_le_card_of_injOn (fun c : Block (16 - a.length) => bits (beNat (AezSpec.xorBytes a b ++ toBytes c))) ?_ ?_
  · intro c _
    show _ ∈ masks a b
    rw [mem_masks, num_bits (beNat_lt' (n := 16) (hl c)), beBytes_beNat'' (hl c)]
    exact hxx h
  · intro c _ c' _ e
    have e := beNat_inj (by rw [hl, hl]) (bits_inj (beNat_lt' (n := 16) (hl c)) (beNat_lt' (n := 16) (hl c')) e)
    have e := List.append_cancel_left e
    rw [← ofBytes_toBytes c, e, ofBytes_toBytes]

theorem pos_pairs (d : Bool) {M : Bytes} (C : Side ℓ V) (bu bv : Finset V) : (⟨d, side ℓ M, C, bu, bv⟩ : Ety ℓ V).pos.length ≤ AezSpec.pairs M := by
  let e : Ety ℓ V := ⟨d, side ℓ M, C, bu, bv⟩
  have hn : (e.pos.map fun x => x.1.1).Nodup := by
    unfold List.Nodup
    rw [List.pairwise_map]
    exact (pos_pairwise e).imp fun {a b} hab h => hab (Fin.ext h)
  have hs : (e.pos.map fun x => x.1.1) ⊆ List.range (AezSpec.pairs M) := by
    intro i hi
    obtain ⟨⟨j, p, q⟩, hx, rfl⟩ := List.mem_map.1 hi
    obtain ⟨h1, -⟩ := mem_pos.1 hx
    rw [List.mem_range]
    by_contra hj
    have h1 : (if j.1 < AezSpec.pairs M then some (bits (AezSpec.block M (32 * j.1)), bits (AezSpec.block M (32 * j.1 + 16))) else none) = some p := h1
    rw [if_neg hj] at h1
    cases h1
  have := (List.subperm_of_subset hn hs).length_le
  rwa [List.length_map, List.length_range] at this

theorem wt_side (d : Bool) {M C : Bytes} (h32 : 32 ≤ M.length) (hl : C.length = M.length) :
    1 / (256 : ℚ) ^ M.length ≤ (⟨d, side ℓ M, side ℓ C, masks (AezSpec.uPart M) (AezSpec.uPart C), masks (AezSpec.vPart M) (AezSpec.vPart C)⟩ : Ety ℓ V).wt := by
  have hm := pos_pairs d (M := M) (side ℓ C) (masks (AezSpec.uPart M) (AezSpec.uPart C)) (masks (AezSpec.vPart M) (AezSpec.vPart C))
  have lu : (AezSpec.uPart M).length = min 16 (M.length % 32) := uPart_len h32
  have lv : (AezSpec.vPart M).length = M.length % 32 - 16 := vPart_len h32
  have lu' : (AezSpec.uPart C).length = min 16 (M.length % 32) := by rw [uPart_len (by omega), hl]
  have lv' : (AezSpec.vPart C).length = M.length % 32 - 16 := by rw [vPart_len (by omega), hl]
  have hr : M.length % 32 < 32 := Nat.mod_lt _ (by decide)
  have cu := masks_card (lu.trans lu'.symm) (by omega)
  have cv := masks_card (lv.trans lv'.symm) (by omega)
  generalize masks (AezSpec.uPart M) (AezSpec.uPart C) = bu at hm cu ⊢
  generalize masks (AezSpec.vPart M) (AezSpec.vPart C) = bv at hm cv ⊢
  have hN : (Fintype.card V : ℚ) = 256 ^ 16 := by rw [card_V, ← pow_256 16]; push_cast; rfl
  have prod_const : ∀ l : List (Fin ℓ × (V × V) × (V × V)), (l.map fun _ => (1 : ℚ) / 256 ^ 16).prod = (1 / 256 ^ 16) ^ l.length := by
    intro l
    rw [List.map_const', List.prod_replicate]
  have e : (⟨d, side ℓ M, side ℓ C, bu, bv⟩ : Ety ℓ V).wt =
      (1 / 256 ^ 16) ^ (⟨d, side ℓ M, side ℓ C, bu, bv⟩ : Ety ℓ V).pos.length * (1 / 256 ^ 16 * (1 / 256 ^ 16 * ((bu.card : ℚ) / 256 ^ 16 * ((bv.card : ℚ) / 256 ^ 16 *
        (1 / 256 ^ 16) ^ (⟨d, side ℓ M, side ℓ C, bu, bv⟩ : Ety ℓ V).pos.length)))) := by
    unfold Ety.wt Ety.conds
    rw [List.map_cons, List.map_cons, List.map_cons, List.map_cons, List.prod_cons, List.prod_cons, List.prod_cons, List.prod_cons, List.map_map, hN]
    simp only [Finset.card_singleton, Nat.cast_one]
    rw [← prod_const]
    rfl
  rw [e]
  generalize (⟨d, side ℓ M, side ℓ C, bu, bv⟩ : Ety ℓ V).pos.length = p at hm ⊢
  have cu' : (256 : ℚ) ^ (16 - (AezSpec.uPart M).length) ≤ bu.card := by exact_mod_cast cu
  have cv' : (256 : ℚ) ^ (16 - (AezSpec.vPart M).length) ≤ bv.card := by exact_mod_cast cv
  have hpow : (1 / (256 : ℚ) ^ 16) ^ AezSpec.pairs M ≤ (1 / 256 ^ 16) ^ p := pow_le_pow_of_le_one (by positivity) (by norm_num) hm
  have hlen : M.length + ((16 - (AezSpec.uPart M).length) + (16 - (AezSpec.vPart M).length)) = 16 * AezSpec.pairs M + 16 * AezSpec.pairs M + 64 := by
    have : 32 * AezSpec.pairs M + M.length % 32 + 32 = M.length := by unfold AezSpec.pairs; omega
    omega
  have key : 1 / (256 : ℚ) ^ M.length = (1 / 256 ^ 16) ^ AezSpec.pairs M * (1 / 256 ^ 16 * (1 / 256 ^ 16 *
      ((256 : ℚ) ^ (16 - (AezSpec.uPart M).length) / 256 ^ 16 * ((256 : ℚ) ^ (16 - (AezSpec.vPart M).length) / 256 ^ 16 * (1 / 256 ^ 16) ^ AezSpec.pairs M)))) := by
    have h1 := congrArg (fun n => (256 : ℚ) ^ n) hlen
    simp only [pow_add, pow_mul] at h1
    rw [one_div_pow]
    have g1 : (256 : ℚ) ^ M.length ≠ 0 := by positivity
    generalize (256 : ℚ) ^ M.length = a at h1 g1 ⊢
    generalize (256 : ℚ) ^ (16 - (AezSpec.uPart M).length) = b at h1 ⊢
    generalize (256 : ℚ) ^ (16 - (AezSpec.vPart M).length) = c at h1 ⊢
    have g2 : ((256 : ℚ) ^ 16) ^ AezSpec.pairs M ≠ 0 := by positivity
    have g3 : (256 : ℚ) ^ 64 = (256 : ℚ) ^ 16 * 256 ^ 16 * (256 ^ 16 * 256 ^ 16) := by norm_num
    rw [g3] at h1
    generalize ((256 : ℚ) ^ 16) ^ AezSpec.pairs M = y at h1 g2 ⊢
    have g4 : (256 : ℚ) ^ 16 ≠ 0 := by positivity
    generalize (256 : ℚ) ^ 16 = N at h1 g4 ⊢
    field_simp
    linear_combination -h1
  rw [key]
  have n1 : (0 : ℚ) ≤ (1 / 256 ^ 16) ^ AezSpec.pairs M := by positivity
  have n2 : (0 : ℚ) ≤ 1 / 256 ^ 16 := by positivity
  have n3 : (0 : ℚ) ≤ 256 ^ (16 - (AezSpec.uPart M).length) / 256 ^ 16 := by positivity
  have n4 : (0 : ℚ) ≤ 256 ^ (16 - (AezSpec.vPart M).length) / 256 ^ 16 := by positivity
  have d1 := div_le_div_of_nonneg_right cu' (c := (256 : ℚ) ^ 16) (by positivity)
  have d2 := div_le_div_of_nonneg_right cv' (c := (256 : ℚ) ^ 16) (by positivity)
  have m1 := mul_le_mul d2 hpow n1 (le_trans n4 d2)
  have m2 := mul_le_mul d1 m1 (mul_nonneg n4 n1) (le_trans n3 d1)
  have m3 := mul_le_mul_of_nonneg_left (mul_le_mul_of_nonneg_left m2 n2) n2
  exact mul_le_mul hpow m3 (mul_nonneg n2 (mul_nonneg n2 (mul_nonneg n3 (mul_nonneg n4 n1)))) (le_trans n1 hpow)

/-! ## All together -/

set_option linter.constructorNameAsVariable false in
theorem of_mask (a b : Bytes) : ∀ v ∈ masks a b, AezSpec.xorBytes a (beBytes 16 (num v)) = b := by
  intro v hv
  rw [mem_masks] at hv
  exact hv

/-- Random tables look like random permutations. -/
theorem random_close {q : Nat} {A : Att Ask Bytes} (hA : AtMost q A) (hs : Asks (Long ℓ) A) :
    |E (fun ρ : Table ℓ => play (cipherT (look ρ)) A) - ideal ℓ A| ≤
      loss ℓ (2 ^ 128) q + ((ℓ : ℚ) * q ^ 2 + q * (q - 1) / 2) / 2 ^ 128 + (q : ℚ) * (q - 1) / (2 * 256 ^ 32) := by
  have e1 : E (fun ρ : Table ℓ => play (cipherT (look ρ)) A) = E (fun ω : Fn ℓ V => play (ans (perms ω)) (onLen ℓ A)) := by
    rw [← E_fns (ℓ := ℓ) (fun ω => play (ans (perms ω)) (onLen ℓ A))]
    congr 1
    funext ρ
    exact (play_onLen (perms (fns ρ)) (fun a ha => (cipher_fns ρ ha).trans (perms_answer _ ha)) hs).symm
  have e2 : ideal ℓ A = E (fun P : Fam (W (ℓ := ℓ)) => play (ans P) (onLen ℓ A)) := by
    unfold ideal
    congr 1
    funext P
    exact (play_onLen P (fun a _ => rfl) hs).symm
  have hN : (Fintype.card V : ℚ) = 2 ^ 128 := by rw [card_V]; push_cast; rfl
  have h1 := system (ℓ := ℓ) (V := V) (W := W (ℓ := ℓ)) (fun n b => side ℓ (toBytes b))
    (fun n a b => masks (AezSpec.uPart (toBytes a)) (AezSpec.uPart (toBytes b))) (fun n a b => masks (AezSpec.vPart (toBytes a)) (AezSpec.vPart (toBytes b)))
    perms ?_ ?_ ?_ ?_ ?_ ?_ (atMost_onLen (ℓ := ℓ) hA)
  · have h2 := perm_close (W := W (ℓ := ℓ)) (M := 256 ^ 32) (by positivity) ?_ (atMost_onLen (ℓ := ℓ) hA)
    · rw [hN] at h1
      push_cast at h2
      rw [e1, e2]
      refine le_trans (abs_sub_le _ _ _) (add_le_add h1 ?_)
      rw [abs_sub_comm]
      exact h2
    · intro n
      rw [card_block]
      exact Nat.pow_le_pow_right (by decide) n.2
  · intro ω e hm
    obtain ⟨d, n, a, b⟩ := e
    show ofBytes _ (coreT (onNum ω) 1 2 (toBytes a)) = b
    have := core_of_meets ω (C := toBytes b) (bu := masks (AezSpec.uPart (toBytes a)) (AezSpec.uPart (toBytes b)))
      (bv := masks (AezSpec.vPart (toBytes a)) (AezSpec.vPart (toBytes b))) (bytes_long a).1 (bytes_long a).2 (by rw [toBytes_len, toBytes_len])
      (of_mask _ _) (of_mask _ _) hm
    rw [this, ofBytes_toBytes]
  · intro n n' a a' e
    exact toBytes_inj (side_inj (bytes_long a).1 (bytes_long a).2 (bytes_long a').1 (bytes_long a').2 e)
  · intro e j
    obtain ⟨d, n, a, b⟩ := e
    have hp : AezSpec.pairs (toBytes a) = AezSpec.pairs (toBytes b) := by unfold AezSpec.pairs; rw [toBytes_len, toBytes_len]
    show (if _ then _ else _) = none ↔ (if _ then _ else _) = none
    rw [hp]
    split
    · simp
    · simp
  · intro e
    obtain ⟨d, n, a, b⟩ := e
    have := wt_side (ℓ := ℓ) d (bytes_long a).1 (C := toBytes b) (by rw [toBytes_len, toBytes_len])
    rw [toBytes_len] at this
    rw [card_block]
    push_cast
    exact this
  · intro n z
    have hn := n.2
    have := prob_block (n := n.1.1) (o := n.1.1 - 16) (by omega) z
    refine le_trans (le_of_eq (prob_congr fun b => ?_)) this
    show bits (AezSpec.block (toBytes b) ((toBytes b).length - 16)) = z ↔ _
    rw [toBytes_len]
  · intro n j z
    have hn := n.2
    by_cases hj : j.1 < n.1.1 / 32 - 1
    · have := prob_block (n := n.1.1) (o := 32 * j.1 + 16) (by omega) z
      refine le_trans (prob_mono fun b hb => ?_) this
      obtain ⟨p, h1, h2⟩ := hb
      rw [blk_side (by unfold AezSpec.pairs; rw [toBytes_len]; exact hj)] at h1
      injection h1 with h1
      rw [← h2, ← h1]
    · refine le_trans (le_of_eq (prob_zero fun b hb => ?_)) (by positivity)
      obtain ⟨p, h1, -⟩ := hb
      have h1 : (if j.1 < AezSpec.pairs (toBytes b) then _ else none) = some p := h1
      rw [if_neg (by unfold AezSpec.pairs; rw [toBytes_len]; exact hj)] at h1
      cases h1

end

end Verif.AezWide
