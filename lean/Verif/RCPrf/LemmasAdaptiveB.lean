import Verif.RCPrf.LemmasAdaptive
import Verif.RCPrf.Props

namespace Verif.RCPrf.Adapt

open Verif Spec Verif.Avg Verif.Oracle Verif.RCPrf.Game

variable (G : Bytes → Nat → UInt8) (n : Nat)

/-! ### Constrained keys as lists of nodes -/

/-- The query for an element. -/
def query (e : Elem) : Query := (e.subHeight - 1, e.min / 2 ^ (e.subHeight - 1))

theorem play_askElems (F : Query → Bytes) (k : List Elem → Att Query Bytes) : ∀ (es acc : List Elem),
    play F (askElems es acc k) = play F (k (acc ++ es.map fun e => fill e (F (query e))))
  | [], acc => by simp [askElems]
  | e :: es, acc => by
    rw [askElems, play, play_askElems F k es]
    simp [query]

theorem asks_askElems {P : Query → Prop} {k : List Elem → Att Query Bytes} (hk : ∀ es, Asks P (k es)) : ∀ (es acc : List Elem),
    (∀ e ∈ es, P (query e)) → Asks P (askElems es acc k)
  | [], acc, _ => hk acc
  | e :: es, acc, h => .ask (h e List.mem_cons_self) fun _ =>
    asks_askElems hk es _ fun e' he' => h e' (List.mem_cons_of_mem _ he')

theorem atMost_askElems {q : Nat} {k : List Elem → Att Query Bytes} (hk : ∀ es, AtMost q (k es)) : ∀ (es acc : List Elem),
    AtMost (q + es.length) (askElems es acc k)
  | [], acc => hk acc
  | e :: es, acc => by
    rw [List.length_cons, ← Nat.add_assoc]
    exact .ask fun _ => atMost_askElems hk es _

/-- The nodes of the constrained key for an accepted range. -/
theorem key_nodes {m : Nat} (hm : m ≤ 61) {r : Nat × Nat} (hr : Accepted (m + 2) r) :
    ∃ es, RCPrf.constrain G n ⟨m + 2, []⟩ r.1 r.2 = .ok ⟨m + 2, es⟩ ∧ es.length ≤ Nat.max 1 (2 * m) ∧
      (∀ e ∈ es, (query e).1 ≤ m ∧ (query e).2 < 2 ^ (m + 1 - (query e).1) ∧ r.1 ≤ (query e).2 * 2 ^ (query e).1 ∧
        (query e).2 * 2 ^ (query e).1 + 2 ^ (query e).1 ≤ r.2 + 1) ∧
      ∀ k : Bytes, RCPrf.constrain G n ⟨m + 2, k⟩ r.1 r.2 =
        .ok ⟨m + 2, es.map fun e => fill e (content G n (m + 1) k (query e).1 ((query e).2 * 2 ^ (query e).1))⟩ := by
  obtain ⟨es0, g0, c0, hcon0⟩ := constrain_gen G n (h := m + 2) (by omega) (by omega) hr []
  refine ⟨es0, c0, ?_, ?_, ?_⟩
  · have := (c06_cover G n ⟨m + 2, []⟩ r.1 r.2 ⟨m + 2, es0⟩ (by simp; omega) c0).2.2
    simpa using this
  · intro e he
    obtain ⟨t, j, e1, e2, hj, hmin, i1, i2, _⟩ := elem_node G n hcon0 he
    have et : e.subHeight - 1 = t := by omega
    have eq : query e = (t, j) := by
      rw [query, et, hmin, Nat.mul_div_cancel _ (Nat.two_pow_pos _)]
    rw [eq]
    refine ⟨by omega, hj, ?_, ?_⟩
    · rw [← hmin]; exact i1
    · rw [← hmin]; exact i2
  · intro k
    obtain ⟨es, g1, c1, hcon⟩ := constrain_gen G n (h := m + 2) (by omega) (by omega) hr k
    have hs := gen_shape G n (m + 2) (m + 2) [] k 0 (maxLeafIndex (m + 2)) r.1 r.2
    rw [g0, g1] at hs
    have hs' : es0.map forget = es.map forget := by simpa using hs
    rw [c1]
    congr 2
    have hφ : ∀ es : List Elem, (es.map fun e => fill e (content G n (m + 1) k (query e).1 ((query e).2 * 2 ^ (query e).1))) =
        (es.map forget).map fun e => fill e (content G n (m + 1) k (query e).1 ((query e).2 * 2 ^ (query e).1)) := by
      intro es
      rw [List.map_map]
      rfl
    rw [hφ, hs', ← hφ]
    conv_lhs => rw [← List.map_id es]
    apply List.map_congr_left
    intro e he
    obtain ⟨t, j, e1, e2, hj, hmin, i1, i2, hnode⟩ := elem_node G n hcon he
    have ej : j < 2 ^ (m + 1 - t) := hj
    have et : e.subHeight - 1 = t := by omega
    have eq : query e = (t, j) := by
      rw [query, et, hmin, Nat.mul_div_cancel _ (Nat.two_pow_pos _)]
    rw [eq]
    show e = fill e _
    have hfill : (if e.subHeight = 1 then Node.leaf (content G n (m + 1) k t (j * 2 ^ t))
        else Node.inner (content G n (m + 1) k t (j * 2 ^ t))) = e.node := by
      rw [hnode]
      by_cases c : e.subHeight = 1
      · rw [if_pos c, if_pos c]
        have ht : t = 0 := by omega
        subst ht
        have : j < 2 ^ (m + 1) := by simpa using ej
        rw [hmin, value]
        simp only [Nat.pow_zero, Nat.mul_one]
        rw [content_leaf G n (m + 1) _ j (by omega) this]
        rfl
      · rw [if_neg c, if_neg c, content_node G n (m + 1) _ t j (by omega) (by omega) ej]
        rfl
    unfold fill
    rw [hfill]

theorem eval_content {m : Nat} (hm : m ≤ 61) {q : Nat} (hq : q < 2 ^ (m + 1)) (k : Bytes) :
    RCPrf.eval G n ⟨m + 2, k⟩ q = .ok (content G n (m + 1) k 0 (q * 2 ^ 0)) := by
  rw [RCPrf.eval_ok (p := ⟨m + 2, k⟩) (by simp) (by simp; omega) (by simpa using hq), Nat.pow_zero, Nat.mul_one,
    content_leaf G n (m + 1) _ q (by omega) hq]
  rfl

variable {rs : List (Nat × Nat)}

section attack
variable {m : Nat} (hm : m ≤ 61) (hrs : ∀ r ∈ rs, Accepted (m + 2) r)
include hm hrs

/-- The attack on the nodes sees what the attack on the code sees. -/
theorem play_toNodes (k : Bytes) {A : Adv} (hA : Fair (m + 2) rs A) :
    play (fun q : Query => content G n (m + 1) k q.1 (q.2 * 2 ^ q.1)) (toNodes G n m A) =
      run (fun r => RCPrf.constrain G n ⟨m + 2, k⟩ r.1 r.2) (fun q => RCPrf.eval G n ⟨m + 2, k⟩ q) A := by
  induction hA with
  | done b => rfl
  | @key r c hr _ ih =>
    obtain ⟨es, h1, _, _, h2⟩ := key_nodes G n hm (hrs r hr)
    rw [toNodes, h1, run, h2 k]
    simp only
    rw [play_askElems, List.nil_append]
    exact ih _
  | @value q c hq _ ih =>
    rw [toNodes, play, run, eval_content G n hm hq.1]
    exact ih _

theorem asks_toNodes {A : Adv} (hA : Fair (m + 2) rs A) : Asks (Good rs (m + 1)) (toNodes G n m A) := by
  induction hA with
  | done b => exact .done b
  | @key r c hr _ ih =>
    obtain ⟨es, h1, _, h2, _⟩ := key_nodes G n hm (hrs r hr)
    rw [toNodes, h1]
    refine asks_askElems (fun es => ih _) es [] fun e he => ?_
    obtain ⟨g1, g2, g3, g4⟩ := h2 e he
    exact ⟨by omega, g2, Or.inr (mem_inside hr g3 g4)⟩
  | @value q c hq _ ih =>
    rw [toNodes]
    exact .ask ⟨by simp, hq.1, Or.inl rfl⟩ fun y => ih _

theorem atMost_toNodes {a b : Nat} {A : Adv} (hA : Fair (m + 2) rs A) (hw : Within a b A) :
    AtMost (b + a * Nat.max 1 (2 * m)) (toNodes G n m A) := by
  induction hw with
  | done o => exact .done o
  | @key a b r c _ ih =>
    cases hA with
    | key hr hc =>
      obtain ⟨es, h1, h2, _, _⟩ := key_nodes G n hm (hrs r hr)
      rw [toNodes, h1]
      refine (atMost_askElems (fun es => ih _ (hc _)) es []).mono ?_
      have : (a + 1) * Nat.max 1 (2 * m) = a * Nat.max 1 (2 * m) + Nat.max 1 (2 * m) := by ring
      omega
  | @value a b q c _ ih =>
    cases hA with
    | value hq hc =>
      rw [toNodes, show b + 1 + a * Nat.max 1 (2 * m) = b + a * Nat.max 1 (2 * m) + 1 by omega]
      exact .ask fun y => ih _ (hc _)

/-- The real world is that of a uniform root. -/
theorem real_hyb (N : Nat → Nat → Bytes) {A : Adv} (hA : Fair (m + 2) rs A) :
    hyb G n rs (m + 1) N (m + 1) 0 (toNodes G n m A) =
      E (fun k : Block 32 => run (fun r => RCPrf.constrain G n ⟨m + 2, toBytes k⟩ r.1 r.2)
        (fun q => RCPrf.eval G n ⟨m + 2, toBytes k⟩ q) A) := by
  unfold hyb
  rw [E_single]
  refine congrArg E (funext fun k => ?_)
  refine Eq.trans ?_ (play_toNodes G n hm hrs (toBytes k) hA)
  refine play_congr (P := Good rs (m + 1)) ?_ (asks_toNodes G n hm hrs hA)
  rintro ⟨t, j⟩ hq
  have hj : j < 2 ^ (m + 1 - t) := hq.2.1
  have hl := level_le rs (m + 1) hq.1 j
  simp only at hl
  unfold ans
  simp only
  rw [if_neg (by omega), Nat.div_eq_of_lt hj, entry_lt _ _ (by decide : 0 < 2 ^ 0), below, Nat.mod_eq_of_lt hj]

omit hm hrs in
/-- A leaf outside has no ancestor inside. -/
theorem level_outside {q : Nat} (hq : Outside (m + 2) rs q) : level rs (m + 1) 0 q = 0 := by
  unfold level
  rw [Nat.zero_max, Nat.findGreatest_eq_zero_iff]
  rintro s hs _ ⟨_, hst⟩
  unfold stop inside at hst
  rw [List.any_eq_true] at hst
  obtain ⟨r, hr, hc⟩ := hst
  simp only [Bool.and_eq_true, decide_eq_true_eq, Nat.sub_zero] at hc
  apply hq.2 r hr
  have h1 := Nat.div_add_mod q (2 ^ s)
  have h2 := Nat.mod_lt q (Nat.two_pow_pos s)
  rw [Nat.mul_comm] at h1
  omega

/-- Which leaves lie inside. -/
theorem play_merge (N : Nat → Nat → Bytes) (S R : Fin (2 ^ (m + 1)) → Val n 0) {A : Adv} (hA : Fair (m + 2) rs A) :
    play (ans G n rs (m + 1) N 0 (merge (fun p : Fin (2 ^ (m + 1)) => stop rs 0 p.val) S R)) (toNodes G n m A) =
      play (ans G n rs (m + 1) N 0 S) (toNodes G n m (given (fun q => .ok (toBytes (entry (fun _ => 0) R q : Block n))) A)) := by
  induction hA with
  | done b => rfl
  | @key r c hr _ ih =>
    obtain ⟨es, h1, _, h2, _⟩ := key_nodes G n hm (hrs r hr)
    rw [given, toNodes, toNodes, h1]
    simp only
    rw [play_askElems, play_askElems, List.nil_append, List.nil_append]
    have e : (es.map fun e => fill e (ans G n rs (m + 1) N 0 (merge (fun p : Fin (2 ^ (m + 1)) => stop rs 0 p.val) S R) (query e))) =
        es.map fun e => fill e (ans G n rs (m + 1) N 0 S (query e)) := by
      apply List.map_congr_left
      intro e he
      obtain ⟨g1, g2, g3, g4⟩ := h2 e he
      generalize query e = qq at *
      obtain ⟨t, j⟩ := qq
      simp only at g1 g2 g3 g4
      congr 1
      unfold ans
      simp only
      by_cases h : 0 < level rs (m + 1) t j
      · rw [if_pos h, if_pos h]
      · rw [if_neg h, if_neg h]
        have ht := le_level rs (m + 1) t j
        have t0 : t = 0 := by omega
        subst t0
        have hlt : j / 2 ^ (0 - 0) < 2 ^ (m + 1) := by simpa using g2
        rw [entry_lt _ _ hlt, entry_lt _ _ hlt, merge, if_pos]
        simp only [Nat.sub_self, Nat.pow_zero, Nat.div_one]
        exact mem_inside hr g3 g4
    rw [e]
    exact ih _
  | @value q c hq _ ih =>
    rw [given, toNodes, play]
    have hlt : q / 2 ^ (0 - 0) < 2 ^ (m + 1) := by simpa using hq.1
    have hns : ¬ stop rs 0 (q / 2 ^ (0 - 0)) = true := by
      unfold stop inside
      rw [List.any_eq_true]
      rintro ⟨r, hr, hc⟩
      simp only [Bool.and_eq_true, decide_eq_true_eq, Nat.sub_self, Nat.pow_zero, Nat.div_one, Nat.mul_one] at hc
      exact hq.2 r hr (by omega)
    have e : ans G n rs (m + 1) N 0 (merge (fun p : Fin (2 ^ (m + 1)) => stop rs 0 p.val) S R) (0, q) =
        toBytes (entry (fun _ => 0) R q : Block n) := by
      unfold ans
      simp only
      rw [level_outside hq, if_neg (by omega), entry_lt _ _ hlt, merge, if_neg hns]
      have e1 : (⟨q / 2 ^ (0 - 0), hlt⟩ : Fin (2 ^ (m + 1))) = ⟨q, hq.1⟩ := Fin.ext (by simp)
      rw [e1]
      exact congrArg (toBytes (m := n)) (entry_lt (α := Block n) (fun _ => 0) R hq.1).symm
    rw [e]
    exact ih _

/-- In the ideal world the values outside are uniform and independent of all else. -/
theorem ideal_values {A : Adv} (hA : Fair (m + 2) rs A) : ∀ (l d : Nat) (N : Nat → Nat → Bytes), l + d = m + 1 →
    ideal G n rs (m + 1) l d N (toNodes G n m A) = E (fun T : Fin (2 ^ (m + 1)) → Block n =>
      ideal G n rs (m + 1) l d N (toNodes G n m (given (fun q => .ok (toBytes (entry (fun _ => 0) T q))) A)))
  | 0, d, N, hd => by
    have : d = m + 1 := by omega
    subst this
    simp only [ideal]
    unfold hyb
    rw [E_merge (fun p : Fin (2 ^ (m + 1)) => stop rs 0 p.val), E_comm]
    exact congrArg E (funext fun R => congrArg E (funext fun S => play_merge G n hm hrs N S R hA))
  | l + 1, d, N, hd => by
    simp only [ideal]
    rw [E_comm]
    exact congrArg E (funext fun S => ideal_values hA l (d + 1) (put N (l + 1) S) (by omega))

omit hm hrs in
theorem fair_given {h : Nat} (V : Nat → Res Bytes) {A : Adv} (hA : Fair h rs A) : Fair h rs (given V A) := by
  induction hA with
  | done b => exact .done b
  | key hr _ ih => exact .key hr fun y => ih y
  | value _ _ ih => exact ih _

omit hm hrs in
theorem within_given (V : Nat → Res Bytes) {a b : Nat} {A : Adv} (hA : Within a b A) : Within a 0 (given V A) := by
  induction hA with
  | done o => exact .done o
  | key _ ih => exact .key fun y => ih y
  | value _ ih => exact ih _

omit hm hrs in
theorem run_given (K : Nat × Nat → Res CRCPrf) (V V' : Nat → Res Bytes) : ∀ A : Adv,
    run K V' (given V A) = run K V A
  | .done _ => rfl
  | .key r c => run_given K V V' (c (K r))
  | .value q c => run_given K V V' (c (V q))

end attack

end Verif.RCPrf.Adapt
