import Verif.RCPrf.Spec
import Mathlib.Data.Nat.Bitwise
import Mathlib.Tactic.Ring
import Mathlib.Tactic.Linarith

namespace Verif.RCPrf

open Verif Spec

theorem and_shift_ne_zero (x s : Nat) : ((x &&& (1 <<< s)) != 0) = decide (x / 2 ^ s % 2 = 1) := by
  rw [Nat.one_shiftLeft, Nat.and_two_pow]
  have h : x.testBit s = decide (x / 2 ^ s % 2 = 1) := Nat.testBit_eq_decide_div_mod_eq
  rw [h]
  have hp : 0 < 2 ^ s := Nat.two_pow_pos s
  by_cases hb : x / 2 ^ s % 2 = 1 <;> simp [hb]

theorem getChild_eq {h x d : Nat} (h1 : d + 2 ≤ h) (h2 : h - d - 2 < 64) :
    getChild h x d = .ok (decide (x / 2 ^ (h - d - 2) % 2 = 1)) := by
  unfold getChild
  rw [if_neg (by omega), if_neg (by omega), and_shift_ne_zero]

theorem childKey_decide (G : Bytes → Nat → UInt8) (k : Bytes) (y : Nat) :
    childKey G k (decide (y % 2 = 1)) = window G k ((y % 2) * 32) 32 := by
  rcases Nat.mod_two_eq_zero_or_one y with h | h <;> simp [childKey, h]

theorem leafValue_decide (G : Bytes → Nat → UInt8) (n : Nat) (k : Bytes) (y : Nat) :
    leafValue G n k (decide (y % 2 = 1)) = window G k ((y % 2) * n) n := by
  rcases Nat.mod_two_eq_zero_or_one y with h | h <;> simp [leafValue, h]

/-- One step down the tree, in terms of bits. -/
theorem treeLeaf_step (G : Bytes → Nat → UInt8) (n l : Nat) (k : Bytes) (x : Nat) :
    treeLeaf G n (l + 2) k (x % 2 ^ (l + 2)) =
      treeLeaf G n (l + 1) (childKey G k (decide (x / 2 ^ (l + 1) % 2 = 1))) (x % 2 ^ (l + 1)) := by
  have hp : 0 < 2 ^ (l + 1) := Nat.two_pow_pos _
  have e : x % 2 ^ (l + 2) = x % 2 ^ (l + 1) + 2 ^ (l + 1) * (x / 2 ^ (l + 1) % 2) := by
    rw [Nat.pow_succ 2 (l + 1), Nat.mod_mul]
  have hlt : x % 2 ^ (l + 1) < 2 ^ (l + 1) := Nat.mod_lt _ hp
  rw [childKey_decide, treeLeaf]
  rcases Nat.mod_two_eq_zero_or_one (x / 2 ^ (l + 1)) with h | h
  · rw [h] at e ⊢
    rw [if_pos (by omega), e]; simp
  · rw [h] at e ⊢
    rw [if_neg (by omega), e]; simp

theorem treeLeaf_one (G : Bytes → Nat → UInt8) (n : Nat) (k : Bytes) (x : Nat) :
    treeLeaf G n 1 k (x % 2) = leafValue G n k (decide (x % 2 = 1)) := by
  rw [leafValue_decide, treeLeaf]

/-- The derivation loop of `derive_leaf`. -/
theorem deriveLoop (G : Bytes → Nat → UInt8) (n h x : Nat) (m : Nat) :
    ∀ (d : Nat) (k : Bytes), h = d + m + 2 → m + 1 < 65 →
    ((List.range' d m).foldlM
      (fun key i => do
        let c ← getChild h x i
        pure (childKey G key c)) k >>= fun key =>
      getChild h x (h - 2) >>= fun c => pure (leafValue G n key c))
      = .ok (treeLeaf G n (m + 1) k (x % 2 ^ (m + 1))) := by
  induction m with
  | zero =>
    intro d k hh _
    have e : h - (h - 2) - 2 = 0 := by omega
    simp only [List.range'_zero, List.foldlM_nil, Res.pure_eq, Res.bind_ok]
    rw [getChild_eq (by omega) (by omega), Res.bind_ok, e, Nat.zero_add, Nat.pow_one, treeLeaf_one]
    simp
  | succ m ih =>
    intro d k hh hm
    have e : h - d - 2 = m + 1 := by omega
    rw [List.range'_succ, List.foldlM_cons, getChild_eq (by omega) (by omega), e]
    simp only [Res.bind_ok, Res.pure_eq]
    have := ih (d + 1) (childKey G k (decide (x / 2 ^ (m + 1) % 2 = 1))) (by omega) (by omega)
    simp only [Res.pure_eq] at this
    rw [this, treeLeaf_step]

/-- `derive_leaf` computes the tree value, reading only the low bits of the leaf index. -/
theorem deriveLeaf_eq (G : Bytes → Nat → UInt8) (n h d x : Nat) (k : Bytes)
    (h1 : d + 2 ≤ h) (h2 : h - d - 2 < 64) :
    deriveLeaf G n h k d x = .ok (treeLeaf G n (h - 1 - d) k (x % 2 ^ (h - 1 - d))) := by
  unfold deriveLeaf
  rw [if_neg (by omega), if_neg (by omega)]
  by_cases hb : h = d + 2
  · subst hb
    rw [if_pos rfl, getChild_eq (by omega) (by omega)]
    have e1 : d + 2 - d - 2 = 0 := by omega
    have e2 : d + 2 - 1 - d = 1 := by omega
    rw [e1, e2]
    simp only [Res.bind_ok, Res.pure_eq, Nat.pow_zero, Nat.div_one, Nat.pow_one]
    rw [treeLeaf_one]
  · rw [if_neg hb, getChild_eq (by omega) (by omega)]
    obtain ⟨m, hm⟩ : ∃ m, h = d + m + 3 := ⟨h - d - 3, by omega⟩
    have e0 : h - d - 2 = m + 1 := by omega
    have e1 : h - 2 - (d + 1) = m := by omega
    have e2 : h - 1 - d = m + 2 := by omega
    rw [e0, e1, e2]
    have := deriveLoop G n h x m (d + 1) (childKey G k (decide (x / 2 ^ (m + 1) % 2 = 1)))
      (by omega) (by omega)
    simp only [Res.bind_ok, Res.pure_eq] at this ⊢
    rw [this, treeLeaf_step]

/-- Leaves below node `j` at depth `d` are the corresponding leaves of the whole tree. -/
theorem treeLeaf_nodeAt (G : Bytes → Nat → UInt8) (n : Nat) (k : Bytes) (d : Nat) :
    ∀ (l j y : Nat), 1 ≤ l → j < 2 ^ d → y < 2 ^ l →
      treeLeaf G n l (nodeAt G k d j) y = treeLeaf G n (l + d) k (j * 2 ^ l + y) := by
  induction d with
  | zero =>
    intro l j y _ hj _
    have : j = 0 := by simpa using hj
    simp [nodeAt, this]
  | succ d ih =>
    intro l j y hl hj hy
    obtain ⟨m, rfl⟩ : ∃ m, l = m + 1 := ⟨l - 1, by omega⟩
    have hp : 0 < 2 ^ (m + 1) := Nat.two_pow_pos _
    have hps : 2 ^ (m + 2) = 2 ^ (m + 1) * 2 := Nat.pow_succ 2 (m + 1)
    have hds : 2 ^ (d + 1) = 2 ^ d * 2 := Nat.pow_succ 2 d
    have hj2 : j / 2 < 2 ^ d := by omega
    have hjd : j = 2 * (j / 2) + j % 2 := by omega
    have hlt : (j % 2) * 2 ^ (m + 1) + y < 2 ^ (m + 2) := by
      rcases Nat.mod_two_eq_zero_or_one j with h | h <;> rw [h] <;> omega
    have h1 := ih (m + 2) (j / 2) ((j % 2) * 2 ^ (m + 1) + y) (by omega) hj2 hlt
    have h2 : treeLeaf G n (m + 2) (nodeAt G k d (j / 2)) ((j % 2) * 2 ^ (m + 1) + y) =
        treeLeaf G n (m + 1) (nodeAt G k (d + 1) j) y := by
      rw [treeLeaf, nodeAt]
      rcases Nat.mod_two_eq_zero_or_one j with h | h
      · rw [h, if_pos (by omega)]; simp
      · rw [h, if_neg (by omega)]
        congr 1; omega
    rw [← h2, h1]
    have e1 : m + 2 + d = m + 1 + (d + 1) := by omega
    have e2 : j / 2 * 2 ^ (m + 2) + ((j % 2) * 2 ^ (m + 1) + y) = j * 2 ^ (m + 1) + y := by
      rw [hps]
      conv_rhs => rw [hjd]
      ring
    rw [e1, e2]

/-! ### Runs -/

@[simp] theorem Run.seq_done (a b : List (Nat × Bytes)) :
    (Run.done a).seq (Run.done b) = Run.done (a ++ b) := rfl

/-- The list of callback calls for the leaves `min, …, min+cnt-1` of a tree with `2^l` leaves. -/
def callsOf (G : Bytes → Nat → UInt8) (n l : Nat) (k : Bytes) (offset min cnt : Nat) :
    List (Nat × Bytes) :=
  (List.range' min cnt).map fun x => (offset + x, treeLeaf G n l k x)

theorem callsOf_append (G : Bytes → Nat → UInt8) (n l : Nat) (k : Bytes) (offset min a b : Nat) :
    callsOf G n l k offset min (a + b) =
      callsOf G n l k offset min a ++ callsOf G n l k offset (min + a) b := by
  unfold callsOf
  rw [← List.map_append, List.range'_append_1]

theorem callsOf_left (G : Bytes → Nat → UInt8) (n l : Nat) (k : Bytes) (offset min c : Nat)
    (h : min + c ≤ 2 ^ (l + 1)) :
    callsOf G n (l + 1) (childKey G k false) offset min c = callsOf G n (l + 2) k offset min c := by
  unfold callsOf
  apply List.map_congr_left
  intro x hx
  rw [List.mem_range'_1] at hx
  rw [treeLeaf, if_pos (by omega)]; simp [childKey]

theorem callsOf_right (G : Bytes → Nat → UInt8) (n l : Nat) (k : Bytes) (offset min c : Nat) :
    callsOf G n (l + 1) (childKey G k true) (offset + 2 ^ (l + 1)) min c =
      callsOf G n (l + 2) k offset (2 ^ (l + 1) + min) c := by
  apply List.ext_getElem
  · simp [callsOf]
  · intro i h1 h2
    simp only [callsOf, List.getElem_map, List.getElem_range']
    rw [treeLeaf, if_neg (by omega)]
    simp only [childKey, Bool.toNat_true, Nat.one_mul]
    congr 1
    · omega
    · congr 1; omega

theorem deriveRangeAux_eq (G : Bytes → Nat → UInt8) (n h s : Nat) :
    ∀ (k : Bytes) (offset min max : Nat), s + 2 ≤ h → s + 1 ≤ 64 → min ≤ max → max < 2 ^ (s + 1) →
      offset + max < W64 →
      deriveRangeAux G n h s k offset min max
        = Run.done (callsOf G n (s + 1) k offset min (max - min + 1)) := by
  induction s with
  | zero =>
    intro k offset min max hh _ hle hmax hof
    unfold deriveRangeAux deriveBottom
    rw [if_neg (by omega), if_neg (by omega), getChild_eq (by omega) (by omega)]
    have e : h - (h - 2) - 2 = 0 := by omega
    have hm0 : (offset + min) % W64 = offset + min := Nat.mod_eq_of_lt (by omega)
    have hm1 : (offset + max) % W64 = offset + max := Nat.mod_eq_of_lt (by omega)
    simp only [e, Nat.pow_zero, Nat.div_one, hm0, hm1]
    simp only [Nat.zero_add, Nat.pow_one] at hmax ⊢
    by_cases hne : min = max
    · subst hne
      rw [if_neg (by simp)]
      have hmod : min % 2 = min := Nat.mod_eq_of_lt hmax
      rw [← treeLeaf_one, hmod]
      simp [callsOf]
    · rw [if_pos hne]
      have : min = 0 := by omega
      have h1 : max = 1 := by omega
      subst this; subst h1
      simp [callsOf, List.range', treeLeaf, leafValue]
  | succ s ih =>
    intro k offset min max hh hs hle hmax hof
    have hp : 0 < 2 ^ (s + 1) := Nat.two_pow_pos _
    have hps : 2 ^ (s + 1 + 1) = 2 ^ (s + 1) * 2 := Nat.pow_succ 2 (s + 1)
    have hth : maxLeafIndex (s + 2) = 2 ^ (s + 1) - 1 := by
      unfold maxLeafIndex
      rw [if_neg (by omega), if_neg (by omega)]
      rfl
    unfold deriveRangeAux
    rw [if_neg (by omega)]
    simp only [hth]
    by_cases hl : min ≤ 2 ^ (s + 1) - 1
    · by_cases hr : max > 2 ^ (s + 1) - 1
      · have hmin : Nat.min max (2 ^ (s + 1) - 1) = 2 ^ (s + 1) - 1 := Nat.min_eq_right (by omega)
        rw [if_pos hl, if_pos hr, if_pos hl, hmin]
        have hof2 : (offset + (2 ^ (s + 1) - 1) + 1) % W64 = offset + 2 ^ (s + 1) := by
          rw [Nat.mod_eq_of_lt (by omega)]; omega
        rw [ih _ offset min (2 ^ (s + 1) - 1) (by omega) (by omega) hl (by omega) (by omega), hof2,
          ih _ (offset + 2 ^ (s + 1)) 0 (max - (2 ^ (s + 1) - 1) - 1) (by omega) (by omega)
            (by omega) (by omega) (by omega), Run.seq_done, callsOf_left _ _ _ _ _ _ _ (by omega),
          callsOf_right]
        have hcnt : max - min + 1 = (2 ^ (s + 1) - 1 - min + 1) + (max - (2 ^ (s + 1) - 1) - 1 - 0 + 1) := by
          omega
        have hst : min + (2 ^ (s + 1) - 1 - min + 1) = 2 ^ (s + 1) + 0 := by omega
        rw [hcnt, callsOf_append _ _ _ _ _ _ (2 ^ (s + 1) - 1 - min + 1), hst]
      · have hmin : Nat.min max (2 ^ (s + 1) - 1) = max := Nat.min_eq_left (by omega)
        rw [if_pos hl, if_neg hr, hmin,
          ih _ offset min max (by omega) (by omega) hle (by omega) hof, Run.seq_done, List.append_nil,
          callsOf_left _ _ _ _ _ _ _ (by omega)]
    · have hr : max > 2 ^ (s + 1) - 1 := by omega
      rw [if_neg hl, if_pos hr, if_neg hl]
      have hof2 : (offset + (2 ^ (s + 1) - 1) + 1) % W64 = offset + 2 ^ (s + 1) := by
        rw [Nat.mod_eq_of_lt (by omega)]; omega
      rw [hof2, ih _ (offset + 2 ^ (s + 1)) (min - (2 ^ (s + 1) - 1) - 1) (max - (2 ^ (s + 1) - 1) - 1)
        (by omega) (by omega) (by omega) (by omega) (by omega), Run.seq_done, List.nil_append,
        callsOf_right]
      have hcnt : max - (2 ^ (s + 1) - 1) - 1 - (min - (2 ^ (s + 1) - 1) - 1) + 1 = max - min + 1 := by
        omega
      have hst : 2 ^ (s + 1) + (min - (2 ^ (s + 1) - 1) - 1) = min := by omega
      rw [hcnt, hst]

end Verif.RCPrf
