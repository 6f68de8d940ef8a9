import Verif.Prg.SpecGame
import Verif.RCPrf.PropsAdaptive

/-!
# C101: the generator and the keys derived with it are as random as the block function
-/

namespace Verif.Prg.Game

open Verif Verif.Avg Verif.Oracle

variable (B : Bytes → Nat → Nat → UInt8)

theorem win_stream (k : Bytes) (off len : Nat) : win (stream B k) off len = window B k off len := rfl

/-- **C101** The code answers with the stream of its key. -/
theorem c101_code (k : Bytes) (c : Call) (h : Sized c) : code B k c = answer (stream B k) c := by
  cases c with
  | derive off len =>
    show (fun b => [b]) <$> derive B (some k) off len false = _
    rw [(c12_window B k off len h.1 h.2).1]; rfl
  | key K off =>
    show (fun b => [b]) <$> deriveKey B K (some k) off = answer (stream B k) (.key K off)
    rw [answer]
    obtain ⟨h1, _, h3, _⟩ := c15_exact B K k off 1 h (by omega) (by rw [Nat.one_mul]; exact h)
    by_cases ho : W64 ≤ off * (K + 1)
    · rw [if_pos ho, h1.2 ho]; rfl
    · rw [if_neg ho, (h3 (by omega)).1]; rfl
  | keys K n off =>
    show deriveKeys B K (some k) n off = answer (stream B k) (.keys K n off)
    rw [answer]
    by_cases hn : 0 < n
    · obtain ⟨_, _, _, h4, _⟩ := c15_exact B K k off n h.1 hn h.2
      by_cases ho : W64 ≤ off * (K + 1) ∨ W64 ≤ n * (K + 1)
      · rw [if_pos ho, h4.2 ho]
      · rw [if_neg ho, (c14_derived_keys B K k off n h.1 h.2 (by omega) (by omega)).2.2.1]; rfl
    · have hn : n = 0 := by omega
      subst hn
      rw [deriveKeys, tooLarge_eq, tooLarge_eq, Nat.zero_mul, if_neg (by decide)]
      by_cases ho : W64 ≤ off * (K + 1)
      · rw [if_pos (by simpa using ho), if_pos (Or.inl ho)]
      · rw [if_neg (by simpa using ho), if_pos rfl, if_neg (by
          have : ¬ W64 ≤ 0 := by decide
          omega)]
        rfl

theorem win_congr {S S' : Nat → UInt8} {off len : Nat} (h : ∀ i, off ≤ i → i < off + len → S i = S' i) : win S off len = win S' off len := by
  unfold win
  apply List.map_congr_left
  intro i hi
  rw [List.mem_range] at hi
  exact h _ (by omega) (by omega)

/-- The answer depends on the shown part of the stream only. -/
theorem answer_congr {S S' : Nat → UInt8} (c : Call) (h : ∀ i, (span c).1 ≤ i → i < (span c).1 + (span c).2 → S i = S' i) : answer S c = answer S' c := by
  cases c with
  | derive off len => rw [answer, answer, win_congr (off := off) (len := len) h]
  | key K off => rw [answer, answer, win_congr (off := off * K) (len := K) h]
  | keys K n off =>
    rw [answer, answer]
    congr 2
    apply List.map_congr_left
    intro j hj
    rw [List.mem_range] at hj
    apply win_congr
    intro i h1 h2
    have e : (off + j) * K = off * K + j * K := Nat.add_mul ..
    have e2 : (j + 1) * K ≤ n * K := Nat.mul_le_mul_right _ hj
    rw [Nat.succ_mul] at e2
    exact h i (by show off * K ≤ i; omega) (by show i < off * K + n * K; omega)

theorem mem_need {c : Call} {i : Nat} (h1 : (span c).1 ≤ i) (h2 : i < (span c).1 + (span c).2) : i / 64 ∈ need c := by
  rw [need, List.mem_range'_1]
  omega

theorem play_askAll (F : Nat → Block 64) (k : (Nat → Block 64) → Att Nat (Block 64)) : ∀ (l : List Nat) (T : Nat → Block 64),
    ∃ T', (∀ i, i ∈ l → T' i = F i) ∧ (∀ i, T i = F i → T' i = F i) ∧ play F (askAll l T k) = play F (k T') := by
  intro l
  induction l with
  | nil => intro T; exact ⟨T, fun i hi => by simp at hi, fun _ h => h, rfl⟩
  | cons i l ih =>
    intro T
    obtain ⟨T', h1, h2, h3⟩ := ih (Function.update T i (F i))
    refine ⟨T', fun j hj => ?_, fun j hj => h2 j ?_, h3⟩
    · rcases List.mem_cons.1 hj with rfl | hj
      · exact h2 j (by simp)
      · exact h1 j hj
    · by_cases h : j = i
      · subst h; simp
      · rw [Function.update_of_ne h]; exact hj

theorem play_toBlocks (F : Nat → Block 64) (A : Att Call (Res (List Bytes))) : play F (toBlocks A) = play (answer (streamOf F)) A := by
  induction A with
  | done b => rfl
  | ask c k ih =>
    rw [toBlocks, play]
    obtain ⟨T', h1, _, h3⟩ := play_askAll F (fun T => toBlocks (k (answer (streamOf T) c))) (need c) (fun _ _ => 0)
    rw [h3, ih, answer_congr c (S := streamOf T') (S' := streamOf F)]
    intro i hi hi2
    unfold streamOf
    rw [h1 _ (mem_need hi hi2)]

theorem atMost_askAll {q : Nat} {k : (Nat → Block 64) → Att Nat (Block 64)} (hk : ∀ T, AtMost q (k T)) : ∀ (l : List Nat) (T : Nat → Block 64),
    AtMost (q + l.length) (askAll l T k) := by
  intro l
  induction l with
  | nil => intro T; exact hk T
  | cons i l ih => intro T; exact .ask fun y => ih _

/-- **C101** The attack on the block function asks for at most `w` blocks for each call, if no call shows more. -/
theorem c101_number {w q : Nat} {A : Att Call (Res (List Bytes))} (hq : AtMost q A) (hw : Asks (fun c => (need c).length ≤ w) A) : AtMost (q * w) (toBlocks A) := by
  induction hq with
  | done b => exact .done b
  | @ask q s c _ ih =>
    cases hw with
    | ask h1 h2 =>
      rw [toBlocks]
      have := atMost_askAll (q := q * w) (k := fun T => toBlocks (c (answer (streamOf T) s))) (fun T => ih _ (h2 _)) (need s) (fun _ _ => 0)
      exact this.mono (by rw [Nat.succ_mul]; omega)

theorem need_length (c : Call) : (need c).length ≤ ((span c).2 + 126) / 64 := by
  rw [need, List.length_range']
  omega

/-! ## Uniform tables -/

/-- A uniform table at different points is a uniform table. -/
theorem E_inj {ι κ β : Type} [Fintype ι] [Fintype κ] [DecidableEq ι] [DecidableEq κ] [Fintype β] [Nonempty β] (p : ι → κ) (hp : Function.Injective p)
    (f : (ι → β) → ℚ) : E (fun S : κ → β => f (S ∘ p)) = E f := by
  classical
  let e0 : ι ⊕ {x : κ // x ∉ Set.range p} ≃ κ :=
    (Equiv.sumCongr (Equiv.ofInjective p hp) (Equiv.refl _)).trans (Equiv.sumCompl (fun x => x ∈ Set.range p))
  let e1 : (ι → β) × ({x : κ // x ∉ Set.range p} → β) ≃ (κ → β) :=
    (Equiv.sumArrowEquivProdArrow ι {x : κ // x ∉ Set.range p} β).symm.trans (Equiv.arrowCongr e0 (Equiv.refl β))
  have h : ∀ x : (ι → β) × ({x : κ // x ∉ Set.range p} → β), (e1 x) ∘ p = x.1 := by
    intro x
    funext i
    have : e0.symm (p i) = Sum.inl i := by
      rw [Equiv.symm_apply_eq]
      rfl
    show (Equiv.sumArrowEquivProdArrow ι {x : κ // x ∉ Set.range p} β).symm x (e0.symm (p i)) = x.1 i
    rw [this]
    rfl
  rw [← E_equiv e1]
  simp only [h]
  rw [E_prod]
  simp only [E_const]

/-- The bytes of a uniform table of blocks are a uniform stream. -/
theorem E_stream (D : Nat) (f : (Nat → UInt8) → ℚ) :
    E (fun T : Fin D → Block 64 => f (streamOf (entry (fun _ => 0) T))) = E (fun S : Fin (64 * D) → UInt8 => f (entry 0 S)) := by
  let e : (Fin (64 * D) → UInt8) ≃ (Fin D → Block 64) :=
    { toFun := fun S c i => S ⟨64 * c.val + i.val, by have := c.isLt; have := i.isLt; omega⟩
      invFun := fun T j => T ⟨j.val / 64, by have := j.isLt; omega⟩ ⟨j.val % 64, Nat.mod_lt _ (by decide)⟩
      left_inv := fun S => by
        funext j
        simp only
        congr 1
        apply Fin.ext
        simp only
        omega
      right_inv := fun T => by
        funext c i
        simp only
        have h1 : (⟨(64 * c.val + i.val) / 64, by have := c.isLt; have := i.isLt; omega⟩ : Fin D) = c := by
          apply Fin.ext; simp only; have := i.isLt; omega
        have h2 : (⟨(64 * c.val + i.val) % 64, Nat.mod_lt _ (by decide)⟩ : Fin 64) = i := by
          apply Fin.ext; simp only; have := i.isLt; omega
        rw [h1, h2] }
  rw [← E_equiv e]
  congr 1
  funext S
  congr 1
  funext j
  unfold streamOf entry
  by_cases h : j < 64 * D
  · rw [dif_pos (show j / 64 < D by omega), dif_pos h]
    show S ⟨64 * (j / 64) + j % 64, _⟩ = S ⟨j, h⟩
    congr 1
    apply Fin.ext
    show 64 * (j / 64) + j % 64 = j
    omega
  · rw [dif_neg (show ¬ j / 64 < D by omega), dif_neg h]

theorem streamOf_blk (k : Bytes) : streamOf (blk B k) = stream B k := rfl

/-- **C101** A client of `Prg` with a uniform key, whose calls depend on the answers before, tells the answers from those of a uniform stream exactly as well as
the attack `toBlocks` tells the block function from a uniform table of blocks.  (`D` is any number of blocks; behind them both the stream and the table are zero, so it should be
chosen so large that no call reaches further: `2^58 + 2^57` blocks are enough for all calls.) -/
theorem c101_generator (D : Nat) {A : Att Call (Res (List Bytes))} (hA : Asks Sized A) :
    |E (fun k : Block 32 => play (code B (toBytes k)) A) - E (fun S : Fin (64 * D) → UInt8 => play (answer (entry 0 S)) A)| = advBlock B D (toBlocks A) := by
  unfold advBlock
  simp only [play_toBlocks, streamOf_blk]
  rw [E_stream D fun S => play (answer S) A]
  congr 3
  funext k
  exact play_congr (fun s hs => c101_code B (toBytes k) s hs) hA

/-- An attack that asks for one derived key after the other, as a client of `Prg`. -/
def askKeys (K : Nat) : Att Nat (Res Bytes) → Att Call (Res (List Bytes))
  | .done b => .done b
  | .ask i k => .ask (.key K i) fun r => askKeys K (k ((fun l => l.headD []) <$> r))

theorem play_askKeys (K : Nat) (F : Call → Res (List Bytes)) (A : Att Nat (Res Bytes)) :
    play F (askKeys K A) = play (fun i => (fun l => l.headD []) <$> F (.key K i)) A := by
  induction A with
  | done b => rfl
  | ask i k ih => rw [askKeys, play, play, ih]

theorem toBytes_win {K : Nat} (S : Nat → UInt8) (off : Nat) : toBytes (fun a : Fin K => S (off + a)) = win S off K := by
  unfold toBytes win
  apply List.ext_getElem
  · simp
  · intro i h1 h2
    simp

/-- **C101** Derived keys: an attack that asks for the keys of `K` bytes with any indices below `M`, one after the other, tells them from independent uniform keys
exactly as well as the attack derived from it tells the block function from a uniform table. -/
theorem c101_derived_keys (K M D : Nat) (hK : K ≤ 2 ^ 63) (hM : M * (K + 1) ≤ W64) (hD : M * K ≤ 64 * D) {A : Att Nat (Res Bytes)} (hA : Asks (· < M) A) :
    |E (fun k : Block 32 => play (deriveKey B K (some (toBytes k))) A) -
      E (fun T : Fin M → Block K => play (fun i => .ok (toBytes (entry (fun _ => 0) T i))) A)| = advBlock B D (toBlocks (askKeys K A)) := by
  have hs : ∀ A : Att Nat (Res Bytes), Asks Sized (askKeys K A) := by
    intro A
    induction A with
    | done b => exact .done b
    | ask i k ih => exact .ask hK fun y => ih _
  rw [← c101_generator B D (hs A)]
  simp only [play_askKeys]
  have hreal : E (fun k : Block 32 => play (deriveKey B K (some (toBytes k))) A) =
      E (fun k : Block 32 => play (fun i => (fun l => l.headD []) <$> code B (toBytes k) (.key K i)) A) := by
    congr 1
    funext k
    congr 1
    funext i
    show _ = (fun l => l.headD []) <$> ((fun b => [b]) <$> deriveKey B K (some (toBytes k)) i)
    cases deriveKey B K (some (toBytes k)) i <;> rfl
  have hideal : E (fun T : Fin M → Block K => play (fun i => Res.ok (toBytes (entry (fun _ => 0) T i))) A) =
      E (fun S : Fin (64 * D) → UInt8 => play (fun i => (fun l => l.headD []) <$> answer (entry 0 S) (.key K i)) A) := by
    let p : Fin M × Fin K → Fin (64 * D) := fun x => ⟨x.1.val * K + x.2.val, by
      have h1 : (x.1.val + 1) * K ≤ M * K := Nat.mul_le_mul_right _ x.1.isLt
      rw [Nat.succ_mul] at h1
      have := x.2.isLt
      omega⟩
    have hp : Function.Injective p := by
      intro x y hxy
      have hv : x.1.val * K + x.2.val = y.1.val * K + y.2.val := congrArg Fin.val hxy
      by_cases h1 : x.1.val = y.1.val
      · rw [h1] at hv
        exact Prod.ext (Fin.ext h1) (Fin.ext (by omega))
      · exact absurd hv (c14_windows_disjoint K _ _ _ _ h1 x.2.isLt y.2.isLt)
    have hu := E_inj (β := UInt8) p hp fun u => play (fun i => Res.ok (toBytes (entry (fun _ => 0) (fun (a : Fin M) (b : Fin K) => u (a, b)) i))) A
    rw [← E_equiv (Equiv.curry (Fin M) (Fin K) UInt8).symm] at hu
    have hcur : E (fun T : Fin M → Block K => play (fun i => Res.ok (toBytes (entry (fun _ => 0) T i))) A) =
        E (fun T : Fin M → Block K => (fun u : Fin M × Fin K → UInt8 => play (fun i => Res.ok (toBytes (entry (fun _ => 0) (fun (a : Fin M) (b : Fin K) => u (a, b)) i))) A)
          ((Equiv.curry (Fin M) (Fin K) UInt8).symm T)) := rfl
    rw [hcur, ← hu]
    congr 1
    funext S
    refine play_congr (P := (· < M)) (fun i hi => ?_) hA
    have hno : ¬ W64 ≤ i * (K + 1) := by
      have : (i + 1) * (K + 1) ≤ M * (K + 1) := Nat.mul_le_mul_right _ hi
      rw [Nat.succ_mul] at this
      omega
    rw [answer, if_neg hno, Res.map_ok, List.headD_cons, entry_lt _ _ hi]
    rw [← toBytes_win]
    congr 2
    funext a
    show S (p (⟨i, hi⟩, a)) = entry 0 S (i * K + a.val)
    rw [entry_lt _ _ (p (⟨i, hi⟩, a)).isLt]
  rw [hreal, hideal]

/-- **C101** (finding) Keys of different lengths, and other output, are windows of one stream: they determine each other. -/
theorem c101_lengths_false (k : Bytes) : ∃ x y z, deriveKey B 16 (some k) 2 = .ok x ∧ deriveKey B 16 (some k) 3 = .ok y ∧ deriveKey B 32 (some k) 1 = .ok z ∧
    z = x ++ y ∧ derive B (some k) 32 32 false = .ok z := by
  have h1 := (c14_derived_keys B 16 k 2 1 (by omega) (by omega) (by decide) (by decide)).1
  have h2 := (c14_derived_keys B 16 k 3 1 (by omega) (by omega) (by decide) (by decide)).1
  have h3 := (c14_derived_keys B 32 k 1 1 (by omega) (by omega) (by decide) (by decide)).1
  exact ⟨_, _, _, h1, h2, h3, window_add B k 32 16 16, (c12_window B k 32 32 (by decide) (by omega)).1⟩

/-! ## The tree of the range-constrained PRF -/

open Verif.RCPrf.Game in
/-- The two children of a node from the first blocks of its stream. -/
def pairOf (n l w : Nat) (u : Fin w → Block 64) : Val n l × Val n l :=
  (fun i => streamOf (entry (fun _ => 0) u) i, fun i => streamOf (entry (fun _ => 0) u) (width n l + i))

open Verif.RCPrf.Game in
/-- **C101** The advantage against one pair of children of a node, in which C89 and C94 are stated, is that of a test of the first blocks of the block function: one
block for inner nodes. -/
theorem c101_pairs (n l w : Nat) (hw : 2 * width n l ≤ 64 * w) (f : Val n l × Val n l → ℚ) :
    adv (child (stream B) n) f = advFirst B w fun u => f (pairOf n l w u) := by
  unfold adv advFirst
  have h1 : E (fun k : Val n (l + 1) => f (child (stream B) n l k)) = E (fun k : Block 32 => f (pairOf n l w fun c => blk B (toBytes k) c)) := by
    show E (fun k : Block 32 => f (child (stream B) n l k)) = _
    congr 1
    funext k
    congr 1
    have hs : ∀ j, j < 64 * w → streamOf (entry (fun _ => 0) fun c : Fin w => blk B (toBytes k) c) j = stream B (toBytes k) j := by
      intro j hj
      unfold streamOf
      rw [entry_lt _ _ (show j / 64 < w by omega)]
      rfl
    refine Prod.ext (funext fun i => ?_) (funext fun i => ?_)
    · have := i.isLt
      exact (hs _ (by omega)).symm
    · have := i.isLt
      exact (hs _ (by omega)).symm
  have h2 : E f = E (fun u : Fin w → Block 64 => f (pairOf n l w u)) := by
    have hE := E_stream w fun S => f (fun i => S i, fun i => S (width n l + i))
    have hl : E (fun u : Fin w → Block 64 => f (pairOf n l w u)) = _ := hE
    rw [hl]
    let p : Fin (width n l) ⊕ Fin (width n l) → Fin (64 * w) := fun x => match x with
      | .inl i => ⟨i, by have := i.isLt; omega⟩
      | .inr i => ⟨width n l + i, by have := i.isLt; omega⟩
    have hp : Function.Injective p := by
      intro x y hxy
      have hv := congrArg Fin.val hxy
      cases x with
      | inl i => cases y with
        | inl j => exact congrArg Sum.inl (Fin.ext hv)
        | inr j => have h1 : i.val = width n l + j.val := hv; have := i.isLt; omega
      | inr i => cases y with
        | inl j => have h1 : width n l + i.val = j.val := hv; have := j.isLt; omega
        | inr j =>
          have h1 : width n l + i.val = width n l + j.val := hv
          exact congrArg Sum.inr (Fin.ext (by omega))
    have hu := E_inj (β := UInt8) p hp fun u => f (fun i => u (.inl i), fun i => u (.inr i))
    have he : E f = E (fun u : (Fin (width n l) ⊕ Fin (width n l)) → UInt8 => f (fun i => u (.inl i), fun i => u (.inr i))) :=
      (E_equiv (Equiv.sumArrowEquivProdArrow (Fin (width n l)) (Fin (width n l)) UInt8) f).symm
    rw [he, ← hu]
    congr 1
    funext S
    congr 1
    refine Prod.ext (funext fun i => ?_) (funext fun i => ?_)
    · exact (entry_lt 0 S (p (.inl i)).isLt).symm
    · exact (entry_lt 0 S (p (.inr i)).isLt).symm
  rw [h1, h2]

open Verif.RCPrf.Game Verif.RCPrf.Adapt in
/-- **C101** The values of the range-constrained PRF outside of the ranges of the keys that an attack holds (C94) are as random as the block function: if no test tells the first
block from a uniform one, or the first blocks of `2 n` bytes, by more than `ε`, then the attack tells the values from uniform ones by at most `ε` for every node that
is asked for and every level. -/
theorem c101_rcprf (n : Nat) {w : Nat} (hw : 2 * n ≤ 64 * w) {m : Nat} (hm : m ≤ 61) {rs : List (Nat × Nat)} (hrs : ∀ r ∈ rs, Accepted (m + 2) r)
    {A : Adv} (hA : Fair (m + 2) rs A) {a b : Nat} (hwi : Within a b A) {ε : ℚ}
    (h1 : ∀ g : (Fin 1 → Block 64) → ℚ, (∀ u, 0 ≤ g u ∧ g u ≤ 1) → advFirst B 1 g ≤ ε)
    (h2 : ∀ g : (Fin w → Block 64) → ℚ, (∀ u, 0 ≤ g u ∧ g u ≤ 1) → advFirst B w g ≤ ε) :
    |E (fun k : Block 32 => run (fun r => Verif.RCPrf.RCPrf.constrain (stream B) n ⟨m + 2, toBytes k⟩ r.1 r.2)
          (fun q => Verif.RCPrf.RCPrf.eval (stream B) n ⟨m + 2, toBytes k⟩ q) A) -
        E (fun k : Block 32 => E (fun T : Fin (2 ^ (m + 1)) → Block n =>
          run (fun r => Verif.RCPrf.RCPrf.constrain (stream B) n ⟨m + 2, toBytes k⟩ r.1 r.2)
            (fun q => .ok (toBytes (entry (fun _ => 0) T q))) A))| ≤
      ((m + 1) * (b + 2 * a * Nat.max 1 (2 * m)) : Nat) * ε := by
  have h0 : 0 ≤ ε := le_trans (abs_nonneg _) (h1 (fun _ => 0) fun _ => ⟨le_refl _, by norm_num⟩)
  have hb : ∀ (l : Nat) (f : Val n l × Val n l → ℚ), Test f → adv (child (stream B) n) f ≤ ε := by
    intro l f hf
    cases l with
    | zero =>
      rw [c101_pairs B n 0 w hw f]
      exact h2 _ fun u => hf _
    | succ l =>
      rw [c101_pairs B n (l + 1) 1 (by show 2 * 32 ≤ 64 * 1; omega) f]
      exact h1 _ fun u => hf _
  exact c94_adaptive (stream B) n hm hrs hA hwi h0 (c94_bounds (stream B) n hb rs _ _) (fun V => c94_bounds (stream B) n hb rs _ _)

/-! ### Examples -/

/-- Asks for the first key, and for the second if it is not zero. -/
def exampleAttack : Att Nat (Res Bytes) :=
  .ask 0 fun x => if x = .ok (List.replicate 32 0) then .done true else .ask 1 fun y => .done (decide (x = y))

example : Asks (· < 2) exampleAttack ∧ AtMost 2 exampleAttack ∧ (2 * (32 + 1) ≤ W64) ∧ 2 * 32 ≤ 64 * 1 := by
  refine ⟨.ask (by decide) fun x => ?_, .ask fun x => ?_, by decide, by decide⟩
  · split
    · exact .done _
    · exact .ask (by decide) fun _ => .done _
  · split
    · exact .done _
    · exact .ask fun _ => .done _

/-- One block is asked for each key of 32 bytes. -/
example : need (.key 32 0) = [0] ∧ need (.key 32 1) = [0] ∧ need (.key 32 5) = [2] ∧ need (.derive 60 10) = [0, 1] := by decide

/-- A block function that ignores the counter: telling it from a table is easy. -/
example : blk (fun k _ i => k.getD (i % 32) 0) [1, 2] 0 = blk (fun k _ i => k.getD (i % 32) 0) [1, 2] 1 := rfl

end Verif.Prg.Game
