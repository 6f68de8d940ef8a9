import Verif.Wrapper.LemmasGame

/-! # C91: wrapped objects look random and cannot be made without the key -/

namespace Verif.Wrapper.Game

open Verif Verif.Mac Verif.Avg

variable {ι : Type} {cls : ι → Class}

theorem abs_le_one {a b : ℚ} (ha : 0 ≤ a ∧ a ≤ 1) (hb : 0 ≤ b ∧ b ≤ 1) : |a - b| ≤ 1 := by
  rw [abs_le]
  constructor <;> linarith [ha.1, ha.2, hb.1, hb.2]

theorem pow16 : (Fintype.card (Block 16) : ℚ) = 2 ^ 128 := by rw [card_block]; norm_num
theorem pow12 : (Fintype.card (Block 12) : ℚ) = 2 ^ 96 := by rw [card_block]; norm_num

/-- A random function takes a given value at a given point with probability `2 ^ -96`. -/
theorem E_hit {N : Nat} (b : Dom N) (g : Block 12) : E (fun T : Dom N → Block 12 => if T b = g then (1 : ℚ) else 0) ≤ 1 / 2 ^ 96 := by
  rw [E_update b]
  simp only [Function.update_self]
  rw [E_const]
  have := E_mem_le [g]
  rw [pow12] at this
  simpa using this

/-- An answer that is changed only when a random function takes a given value at a given point. -/
theorem E_answer {N : Nat} {α : Type} (o : (Dom N → Block 12) → α) (r : α) (f : (Dom N → Block 12) → α → ℚ)
    (hf : ∀ T o, 0 ≤ f T o ∧ f T o ≤ 1) (b : Dom N) (g : Block 12) (h : ∀ T, T b ≠ g → o T = r) :
    |E (fun T => f T (o T)) - E (fun T => f T r)| ≤ 1 / 2 ^ 96 := by
  refine le_trans (abs_E_sub_le_E (fun T => f T (o T)) (fun T => f T r) (fun T => if T b = g then (1 : ℚ) else 0) fun T => ?_)
    (E_hit b g)
  by_cases hT : T b = g
  · rw [if_pos hT]
    exact abs_le_one (hf _ _) (hf _ _)
  · rw [h T hT, if_neg hT, sub_self, abs_zero]

/-- A string that was not returned is rejected, unless the random function takes the value of its tag. -/
theorem open_reject (hF : HeadersFree cls) (Z : Block 12 → Nat → UInt8) {N : Nat} {L : List (Bytes × Block 12)}
    {R : List (Bytes × Bytes)} (hR : Past cls Z L R) {t : ι} {y : Bytes} (hnot : ((cls t).header, y) ∉ R)
    (hlen : 16 + (cls t).header.length + (y.length - 28) ≤ N) :
    ∃ (b : Dom N) (g : Block 12), ∀ T : Dom N → Block 12, T b ≠ g → openF (over L T) Z (cls t) y = reject y := by
  by_cases hy : y.length ≤ 28
  · refine ⟨⟨[], Nat.zero_le _⟩, fun _ => 0, fun T _ => ?_⟩
    unfold openF reject
    rw [if_pos hy, if_pos hy]
  · generalize hg : tagB (y.drop (y.length - 12)) = g
    generalize hse : xorZ Z g ((y.drop 16).take (y.length - 28)) = ser
    have hsl : ser.length = y.length - 28 := by
      rw [← hse]
      unfold xorZ
      rw [List.length_mapIdx, List.length_take, List.length_drop]
      omega
    have hil : (y.take 16).length = 16 := by rw [List.length_take]; omega
    have hal : (authData (y.take 16) (cls t).header ser).length ≤ N := by
      unfold authData
      rw [List.length_append, List.length_append, hil, hsl]
      exact hlen
    have hxx : xorZ Z g ser = (y.drop 16).take (y.length - 28) := by
      rw [← hse]
      apply List.ext_getElem
      · simp [xorZ]
      · intro i h1 h2
        simp [xorZ, UInt8.xor_assoc]
    have hy' : y = blobG Z (y.take 16) ser g := by
      unfold blobG
      rw [hxx, ← hg, toBytes_tagB (by rw [List.length_drop]; omega)]
      exact split_blob y (by omega)
    refine ⟨⟨_, hal⟩, g, fun T hTb => ?_⟩
    -- the tag of a returned string cannot be used for another one
    have hne : over L T (authData (y.take 16) (cls t).header ser) ≠ g := by
      intro hT
      unfold over at hT
      cases hl : L.lookup (authData (y.take 16) (cls t).header ser) with
      | none =>
        rw [hl] at hT
        simp only at hT
        unfold ext at hT
        rw [dif_pos hal] at hT
        exact hTb hT
      | some g' =>
        rw [hl] at hT
        simp only at hT
        subst hT
        rw [List.lookup_eq_some_iff] at hl
        obtain ⟨l1, l2, h1, _⟩ := hl
        obtain ⟨t', iv', s', e1, e2⟩ := hR (authData (y.take 16) (cls t).header ser, g') (by rw [h1]; simp)
        simp only [authData] at e1
        rw [List.append_assoc, List.append_assoc] at e1
        obtain ⟨e3, e4⟩ := List.append_inj e1 (by rw [hil, length_toBytes])
        obtain ⟨e5, e6⟩ := hF t t' ser s' e4
        rw [← e3, ← e5, ← e6, ← hy'] at e2
        exact hnot e2
    unfold openF reject
    rw [if_neg hy, if_neg hy]
    simp only [hg, hse]
    rw [if_pos hne]

/-- With a random function for the tags, tags are uniformly random and nothing is accepted, except with small probability. -/
theorem sim_mid (hF : HeadersFree cls) (Z : Block 12 → Nat → UInt8) (N : Nat) (A : Att cls) :
    ∀ (qw qu : Nat), AtMost qw qu A → ∀ (L : List (Bytes × Block 12)) (R : List (Bytes × Bytes)), Past cls Z L R →
      |E (fun T : Dom N → Block 12 => sim (over L T) Z N R A) - mid Z N R A| ≤ coll 128 L.length qw + qu / 2 ^ 96 := by
  have hq : ∀ q : Nat, (0 : ℚ) ≤ q / 2 ^ 96 := fun q => by positivity
  induction A with
  | done b =>
    intro qw qu _ L R _
    simp only [sim, mid, E_const, sub_self, abs_zero]
    exact add_nonneg (coll_nonneg _ _ _) (hq _)
  | flip f ih =>
    intro qw qu h L R hR
    cases h with
    | flip h =>
      simp only [sim, mid]
      rw [E_comm]
      exact abs_E_sub_le _ _ fun b => ih b qw qu (h b) L R hR
  | wrap t x c ih =>
    intro qw' qu h L R hR
    cases h with
    | @wrap qw _ _ _ _ h =>
      simp only [sim, mid]
      cases hs : serOf (cls t) N x with
      | none =>
        simp only
        exact le_trans (ih _ qw qu (h _) L R hR) (add_le_add (coll_step _ _ _) (le_refl _))
      | some s =>
        simp only
        obtain ⟨_, _, hlen⟩ := serOf_some hs
        rw [E_comm]
        have hb : E (fun iv : Block 16 => (if (L.map fun p => ivOf p.1).contains iv then (1 : ℚ) else 0) +
            (coll 128 (L.length + 1) qw + qu / 2 ^ 96)) ≤ coll 128 L.length (qw + 1) + qu / 2 ^ 96 := by
          rw [E_add, E_const, coll, add_assoc]
          have := E_mem_le (L.map fun p => ivOf p.1)
          rw [pow16, List.length_map] at this
          linarith
        refine le_trans (abs_E_sub_le_E _ _ _ fun iv => ?_) hb
        by_cases hc : (L.map fun p => ivOf p.1).contains iv = true
        · rw [if_pos hc]
          refine le_trans (abs_le_one ⟨E_nonneg fun T => (sim_range _ _ _ _ _).1, E_le_one fun T => (sim_range _ _ _ _ _).2⟩
            ⟨E_nonneg fun g => (mid_range _ _ _ _).1, E_le_one fun g => (mid_range _ _ _ _).2⟩) ?_
          exact le_add_of_nonneg_right (add_nonneg (coll_nonneg _ _ _) (hq _))
        · rw [if_neg hc, zero_add]
          have hl := lookup_none (cls t).header s (by simpa using hc)
          have ha : (authData (toBytes iv) (cls t).header s).length ≤ N := by
            unfold authData
            rw [List.length_append, List.length_append, length_toBytes]
            exact hlen
          rw [E_update ⟨_, ha⟩, E_comm]
          refine abs_E_sub_le _ _ fun g => ?_
          simp only [over_cons L _ _ ha hl]
          have hg : ∀ T : Dom N → Block 12, over ((authData (toBytes iv) (cls t).header s, g) :: L) T
              (authData (toBytes iv) (cls t).header s) = g := by
            intro T
            unfold over
            rw [List.lookup_cons, beq_self_eq_true]
          simp only [hg]
          refine ih _ qw qu (h _) ((authData (toBytes iv) (cls t).header s, g) :: L) _ ?_
          intro p hp
          rcases List.mem_cons.mp hp with rfl | hp
          · exact ⟨t, iv, s, rfl, List.mem_cons_self⟩
          · obtain ⟨t', iv', s', h1, h2⟩ := hR p hp
            exact ⟨t', iv', s', h1, List.mem_cons_of_mem _ h2⟩
  | unwrap t y c ih =>
    intro qw qu' h L R hR
    cases h with
    | @unwrap _ qu _ _ _ h =>
      have hstep : coll 128 L.length qw + (qu : ℚ) / 2 ^ 96 ≤ coll 128 L.length qw + ((qu + 1 : Nat) : ℚ) / 2 ^ 96 := by
        refine add_le_add (le_refl _) (div_le_div_of_nonneg_right ?_ (by positivity))
        push_cast
        linarith
      simp only [sim, mid]
      by_cases hr : refused N R (cls t) y = true
      · simp only [hr, if_true]
        exact le_trans (ih _ qw qu (h _) L R hR) hstep
      · simp only [hr]
        unfold refused at hr
        simp only [Bool.or_eq_true, List.contains_eq_mem, decide_eq_true_eq, not_or, not_lt] at hr
        obtain ⟨hnot, hlen⟩ := hr
        obtain ⟨b, g, hbg⟩ := open_reject hF Z hR hnot hlen
        have hb := E_answer (fun T : Dom N → Block 12 => openF (over L T) Z (cls t) y) (reject y)
          (fun T o => sim (over L T) Z N R (c o)) (fun T o => sim_range _ _ _ _ _) b g hbg
        have hi := ih (reject y) qw qu (h _) L R hR
        refine le_trans (abs_sub_le _ (E (fun T : Dom N → Block 12 => sim (over L T) Z N R (c (reject y)))) _) ?_
        push_cast
        rw [add_div]
        linarith

/-! ### The key stream -/

/-- A key stream with some values given by a table. -/
def overZ {N : Nat} (Q : List (Block 12 × Block N)) (G : Block 12 → Block N) : Block 12 → Block N := fun g =>
  match Q.lookup g with
  | some z => z
  | none => G g

theorem overZ_cons {N : Nat} (Q : List (Block 12 × Block N)) (G : Block 12 → Block N) (g : Block 12) (hQ : Q.lookup g = none)
    (z : Block N) : overZ Q (Function.update G g z) = overZ ((g, z) :: Q) G := by
  funext d
  unfold overZ
  rw [List.lookup_cons]
  by_cases h : d = g
  · subst h
    simp only [hQ, beq_self_eq_true, Function.update_self]
  · have hb : (d == g) = false := by simpa using h
    rw [hb]
    simp only [Function.update_of_ne h]

/-- Random bytes added to a string give random bytes. -/
theorem E_pad {N : Nat} (s : Bytes) (hs : s.length ≤ N) (f : Bytes → ℚ) :
    E (fun z : Block N => f (s.mapIdx fun i b => b ^^^ (if h : i < N then z ⟨i, h⟩ else 0))) =
      E (fun z : Block s.length => f (toBytes z)) := by
  obtain ⟨d, rfl⟩ := Nat.exists_eq_add_of_le hs
  let e : Block s.length ≃ Block s.length :=
    { toFun := fun z i => s[i] ^^^ z i
      invFun := fun z i => s[i] ^^^ z i
      left_inv := fun z => by funext i; simp [← UInt8.xor_assoc]
      right_inv := fun z => by funext i; simp [← UInt8.xor_assoc] }
  rw [← E_equiv (Fin.appendEquiv s.length d) (fun z : Block (s.length + d) =>
    f (s.mapIdx fun i b => b ^^^ (if h : i < s.length + d then z ⟨i, h⟩ else 0))), E_prod,
    ← E_equiv e (fun z : Block s.length => f (toBytes z))]
  refine congrArg E (funext fun z => ?_)
  rw [← E_const (α := Block d) (f (toBytes (e z)))]
  refine congrArg E (funext fun z' => congrArg f ?_)
  apply List.ext_getElem
  · rw [length_toBytes, List.length_mapIdx]
  · intro i h1 h2
    rw [length_toBytes] at h2
    have h3 : i < s.length + d := by omega
    simp only [List.getElem_mapIdx, h3, dif_pos, toBytes, List.getElem_ofFn]
    have : (Fin.appendEquiv s.length d) (z, z') ⟨i, h3⟩ = z ⟨i, h2⟩ := Fin.append_left z z' ⟨i, h2⟩
    rw [this]
    rfl

/-- With random key streams, random tags give random strings, except when a tag comes twice. -/
theorem mid_ideal (N : Nat) (A : Att cls) : ∀ (qw qu : Nat), AtMost qw qu A → ∀ (Q : List (Block 12 × Block N))
    (R : List (Bytes × Bytes)),
      |E (fun G : Block 12 → Block N => mid (extZ (overZ Q G)) N R A) - ideal N R A| ≤ coll 96 Q.length qw := by
  induction A with
  | done b =>
    intro qw qu _ Q R
    simp only [mid, ideal, E_const, sub_self, abs_zero]
    exact coll_nonneg _ _ _
  | flip f ih =>
    intro qw qu h Q R
    cases h with
    | flip h =>
      simp only [mid, ideal]
      rw [E_comm]
      exact abs_E_sub_le _ _ fun b => ih b qw qu (h b) Q R
  | wrap t x c ih =>
    intro qw' qu h Q R
    cases h with
    | @wrap qw _ _ _ _ h =>
      simp only [mid, ideal]
      cases hs : serOf (cls t) N x with
      | none =>
        simp only
        exact le_trans (ih _ qw qu (h _) Q R) (coll_step _ _ _)
      | some s =>
        simp only
        obtain ⟨_, _, hlen⟩ := serOf_some hs
        rw [E_comm]
        refine abs_E_sub_le _ _ fun iv => ?_
        rw [E_comm]
        have hb : E (fun g : Block 12 => (if (Q.map Prod.fst).contains g then (1 : ℚ) else 0) +
            coll 96 (Q.length + 1) qw) ≤ coll 96 Q.length (qw + 1) := by
          rw [E_add, E_const, coll]
          have := E_mem_le (Q.map Prod.fst)
          rw [pow12, List.length_map] at this
          linarith
        refine le_trans (abs_E_sub_le_E _ _ _ fun g => ?_) hb
        by_cases hc : (Q.map Prod.fst).contains g = true
        · rw [if_pos hc]
          refine le_trans (abs_le_one ⟨E_nonneg fun T => (mid_range _ _ _ _).1, E_le_one fun T => (mid_range _ _ _ _).2⟩
            ⟨E_nonneg fun g => (ideal_range _ _ _).1, E_le_one fun g => (ideal_range _ _ _).2⟩) ?_
          exact le_add_of_nonneg_right (coll_nonneg _ _ _)
        · rw [if_neg hc, zero_add]
          have hl : Q.lookup g = none := by
            rw [List.lookup_eq_none_iff]
            intro p hp
            rw [bne_iff_ne]
            intro e
            refine hc ?_
            rw [List.contains_eq_mem, decide_eq_true_eq, e]
            exact List.mem_map_of_mem hp
          rw [E_update g, E_comm]
          simp only [overZ_cons Q _ _ hl]
          rw [← E_pad (N := N) s (by omega) fun w => ideal N (((cls t).header, toBytes iv ++ w ++ toBytes g) :: R)
            (c (.ok (toBytes iv ++ w ++ toBytes g)))]
          refine abs_E_sub_le _ _ fun z => ?_
          have hz : ∀ G : Block 12 → Block N, blobG (extZ (overZ ((g, z) :: Q) G)) (toBytes iv) s g =
              toBytes iv ++ (s.mapIdx fun i b => b ^^^ (if h : i < N then z ⟨i, h⟩ else 0)) ++ toBytes g := by
            intro G
            unfold blobG xorZ extZ overZ
            simp only [List.lookup_cons, beq_self_eq_true]
          simp only [hz]
          exact ih _ qw qu (h _) ((g, z) :: Q) _
  | unwrap t y c ih =>
    intro qw qu' h Q R
    cases h with
    | @unwrap _ qu _ _ _ h =>
      simp only [mid, ideal]
      by_cases hr : refused N R (cls t) y = true
      · simp only [hr, if_true]
        exact ih _ qw qu (h _) Q R
      · rw [if_neg hr]
        have hr' : refused N R (cls t) y = false := by simpa using hr
        simp only [hr', Bool.false_eq_true, if_false]
        exact ih _ qw qu (h _) Q R

/-! ### The theorem -/

/-- The code with a key is the world whose functions have the two derived keys. -/
theorem c91_code {H : Bytes → Bytes} (hH : ∀ m, (H m).length = 64) (S : Bytes → Bytes → Nat → UInt8)
    (junk : Nat → UInt8) (N : Nat) (A : Att cls) (k : Block 32) :
    realKey H S junk N A k =
      sim (tagF H (keyB ((HMAC H (toBytes k) [1]).take 32))) (streamF S (keyB ((HMAC H (toBytes k) [2]).take 32))) N [] A := by
  obtain ⟨h1, ⟨h2, h3, h4⟩, _⟩ := c29_keys hH junk (toBytes k) (length_toBytes k)
  have hl : ∀ d, ((HMAC H (toBytes k) d).take 32).length = 32 := by
    intro d
    unfold HMAC
    rw [List.length_take, hH]
    rfl
  unfold realKey
  rw [h1]
  simp only
  refine real_sim hH S junk N ⟨?_, ?_, length_toBytes _⟩ A []
  · rw [show toBytes (keyB ((HMAC H (toBytes k) [1]).take 32)) = (HMAC H (toBytes k) [1]).take 32 from toBytes_getD (hl [1])]
  · rw [show toBytes (keyB ((HMAC H (toBytes k) [2]).take 32)) = (HMAC H (toBytes k) [2]).take 32 from toBytes_getD (hl [2])]

/-- **C91** Wrapped objects look like uniformly random strings, and nothing else is accepted. -/
theorem c91_wrapper (hF : HeadersFree cls) {H : Bytes → Bytes} (hH : ∀ m, (H m).length = 64) (S : Bytes → Bytes → Nat → UInt8) (junk : Nat → UInt8)
    (N : Nat) {A : Att cls} {qw qu : Nat} (hq : AtMost qw qu A) :
    |E (fun k => realKey H S junk N A k) - ideal N [] A| ≤
      advKdf H S N A + advTag H S N A + advStream S N A +
        (qw * (qw - 1) / 2 ^ 129 + qu / 2 ^ 96 + qw * (qw - 1) / 2 ^ 97) := by
  have h1 : |E (fun ke => E (fun T : Dom N → Block 12 => sim (ext T) (streamF S ke) N [] A)) -
      E (fun ke => mid (streamF S ke) N [] A)| ≤ coll 128 0 qw + qu / 2 ^ 96 :=
    abs_E_sub_le _ _ fun ke => sim_mid hF (streamF S ke) N A qw qu hq [] [] (fun p hp => absurd hp List.not_mem_nil)
  have h2 : |E (fun G : Block 12 → Block N => mid (extZ G) N [] A) - ideal N [] A| ≤ coll 96 0 qw :=
    mid_ideal N A qw qu hq [] []
  rw [coll_eq] at h1 h2
  simp only [c91_code hH]
  have t1 := abs_sub_le (E (fun k : Block 32 => sim (tagF H (keyB ((HMAC H (toBytes k) [1]).take 32)))
      (streamF S (keyB ((HMAC H (toBytes k) [2]).take 32))) N [] A))
    (E (fun ke => E (fun kt => sim (tagF H kt) (streamF S ke) N [] A))) (ideal N [] A)
  have t2 := abs_sub_le (E (fun ke => E (fun kt => sim (tagF H kt) (streamF S ke) N [] A)))
    (E (fun ke => E (fun T : Dom N → Block 12 => sim (ext T) (streamF S ke) N [] A))) (ideal N [] A)
  have t3 := abs_sub_le (E (fun ke => E (fun T : Dom N → Block 12 => sim (ext T) (streamF S ke) N [] A)))
    (E (fun ke => mid (streamF S ke) N [] A)) (ideal N [] A)
  have t4 := abs_sub_le (E (fun ke => mid (streamF S ke) N [] A))
    (E (fun G : Block 12 → Block N => mid (extZ G) N [] A)) (ideal N [] A)
  have e1 : ((0 : Nat) * (qw : ℚ) + qw * (qw - 1) / 2) / 2 ^ 128 = qw * (qw - 1) / 2 ^ 129 := by
    push_cast
    ring
  have e2 : ((0 : Nat) * (qw : ℚ) + qw * (qw - 1) / 2) / 2 ^ 96 = qw * (qw - 1) / 2 ^ 97 := by
    push_cast
    ring
  rw [e1] at h1
  rw [e2] at h2
  unfold advKdf advTag advStream
  linarith

/-! ### Forgeries -/

/-- The attack that only looks for a string that is accepted. -/
def watch : Att cls → Att cls
  | .done _ => .done false
  | .flip f => .flip fun b => watch (f b)
  | .wrap t x c => .wrap t x fun y => watch (c y)
  | .unwrap t y c => .unwrap t y fun o => match o with
    | .ok _ => .done true
    | .exc e => watch (c (.exc e))
    | .ub => watch (c .ub)

theorem watch_mid (Z : Block 12 → Nat → UInt8) (N : Nat) (A : Att cls) : ∀ R, mid Z N R (watch A) = 0 := by
  induction A with
  | done b => intro R; rfl
  | flip f ih => intro R; simp only [watch, mid, ih, E_const]
  | wrap t x c ih =>
    intro R
    simp only [watch, mid]
    cases serOf (cls t) N x with
    | none => exact ih _ R
    | some s => simp only [ih, E_const]
  | unwrap t y c ih =>
    intro R
    simp only [watch, mid]
    split
    · exact ih _ R
    · unfold reject
      by_cases h : y.length ≤ 28
      · simp only [h, if_true, ih]
      · simp only [h, if_false, ih]

theorem watch_atMost {A : Att cls} {qw qu : Nat} (h : AtMost qw qu A) : AtMost qw qu (watch A) := by
  induction h with
  | done b => exact .done _
  | flip _ ih => exact .flip ih
  | wrap _ ih => exact .wrap ih
  | unwrap _ ih =>
    unfold watch
    refine .unwrap fun o => ?_
    cases o with
    | ok m => exact .done _
    | exc e => exact ih _
    | ub => exact ih _

/-- **C91** The probability that some string that wrapping did not return for the header is unwrapped: the key stream
does not matter. -/
theorem c91_forgery (hF : HeadersFree cls) {H : Bytes → Bytes} (hH : ∀ m, (H m).length = 64)
    (S : Bytes → Bytes → Nat → UInt8) (junk : Nat → UInt8) (N : Nat) {A : Att cls} {qw qu : Nat} (hq : AtMost qw qu A) :
    E (fun k => realKey H S junk N (watch A) k) ≤
      advKdf H S N (watch A) + advTag H S N (watch A) + (qw * (qw - 1) / 2 ^ 129 + qu / 2 ^ 96) := by
  have h1 : |E (fun ke => E (fun T : Dom N → Block 12 => sim (ext T) (streamF S ke) N [] (watch A))) -
      E (fun ke => mid (streamF S ke) N [] (watch A))| ≤ coll 128 0 qw + qu / 2 ^ 96 :=
    abs_E_sub_le _ _ fun ke => sim_mid hF (streamF S ke) N (watch A) qw qu (watch_atMost hq) [] []
      (fun p hp => absurd hp List.not_mem_nil)
  simp only [watch_mid, E_const, sub_zero] at h1
  rw [coll_eq] at h1
  have e1 : ((0 : Nat) * (qw : ℚ) + qw * (qw - 1) / 2) / 2 ^ 128 = qw * (qw - 1) / 2 ^ 129 := by
    push_cast
    ring
  rw [e1] at h1
  have h2 := le_trans (le_abs_self _) h1
  simp only [c91_code hH]
  unfold advKdf advTag
  have t1 := le_abs_self (E (fun k : Block 32 => sim (tagF H (keyB ((HMAC H (toBytes k) [1]).take 32)))
      (streamF S (keyB ((HMAC H (toBytes k) [2]).take 32))) N [] (watch A)) -
    E (fun ke => E (fun kt => sim (tagF H kt) (streamF S ke) N [] (watch A))))
  have t2 := le_abs_self (E (fun ke => E (fun kt => sim (tagF H kt) (streamF S ke) N [] (watch A))) -
    E (fun ke => E (fun T : Dom N → Block 12 => sim (ext T) (streamF S ke) N [] (watch A))))
  linarith

/-! ### The classes of the library -/

/-- **C91** No header of the library is the beginning of another. -/
theorem c91_headers {K : Type} (pem : K → Bytes) (parse : Bytes → Res K) : HeadersFree (fun t : TypeId => t.cls pem parse) := by
  intro t u s s' h
  have hl : (t.cls pem parse).header.length = (u.cls pem parse).header.length := by
    have h0 : (t.cls pem parse).typeByte = (u.cls pem parse).typeByte := by
      have := congrArg List.head? h
      simpa [Class.header] using this
    revert h0
    cases t <;> cases u <;>
      simp [TypeId.cls, Class.header, cipherC, prfC, prgC, prpC, rcprfC, crcprfC, tdpInverseC, nbCtx]
  exact List.append_inj h hl

/-- An attack that wraps a generator, unwraps the result as a cipher, and looks whether it was accepted. -/
def confuse {K : Type} (pem : K → Bytes) (parse : Bytes → Res K) : Att (fun t : TypeId => t.cls pem parse) :=
  .wrap .prg (some toyKey32 : Option Bytes) fun y => match y with
    | .ok b => .unwrap .cipher b fun _ => .done false
    | _ => .done false

/-- The hypotheses for an attack that takes a wrapped generator for a cipher; the generator is wrapped and the unwrapping is
not refused (the headers are different). -/
example (pem : Nat → Bytes) (parse : Bytes → Res Nat) : AtMost 1 1 (confuse pem parse) ∧
    serOf prgC 64 (some toyKey32 : Option Bytes) = some toyKey32 ∧
    (∀ b : Bytes, b.length = 60 → refused 64 [(prgC.header, b)] cipherC b = false) ∧
    E (fun k => realKey toyH' toyS (fun _ => 7) 64 (watch (confuse pem parse)) k) ≤
      advKdf toyH' toyS 64 (watch (confuse pem parse)) + advTag toyH' toyS 64 (watch (confuse pem parse)) + 1 / 2 ^ 96 := by
  have hq : AtMost 1 1 (confuse pem parse) := by
    refine .wrap fun y => ?_
    cases y with
    | ok b => exact .unwrap fun _ => .done _
    | exc e => exact .done _
    | ub => exact .done _
  refine ⟨hq, by simp [serOf, prgC, keySer, Class.header, toyKey32], ?_, ?_⟩
  · intro b hb
    simp [refused, Class.header, prgC, cipherC, hb]
  · have := c91_forgery (c91_headers pem parse) toyH'_length toyS (fun _ => 7) 64 hq
    simpa using this

end Verif.Wrapper.Game
