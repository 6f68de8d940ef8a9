import Verif.RCPrf.LemmasGame
import Mathlib.Data.Fin.Tuple.Basic
import Mathlib.Data.Rat.Defs

namespace Verif.RCPrf.Game

open Verif Spec Verif.Avg

variable (G : Bytes → Nat → UInt8) (n : Nat)

/-! ### What the code hands out is a function of the opened nodes -/

theorem mem_inside {rs : List (Nat × Nat)} {r : Nat × Nat} (hr : r ∈ rs) {t x : Nat} (h1 : r.1 ≤ x)
    (h2 : x + 2 ^ t ≤ r.2 + 1) : inside rs t x = true := by
  unfold inside
  rw [List.any_eq_true]
  exact ⟨r, hr, by simp [h1, h2]⟩

/-- The elements of a constrained key, with the level and number of their nodes. -/
theorem elem_node {h : Nat} {k : Bytes} {r : Nat × Nat} {c : CRCPrf} (hc : IsConstrained G n h k r.1 r.2 c)
    {e : Elem} (he : e ∈ c.elems) :
    ∃ t j, e.subHeight = t + 1 ∧ t + 1 < h ∧ j < 2 ^ (h - 1 - t) ∧ e.min = j * 2 ^ t ∧ r.1 ≤ e.min ∧
      e.min + 2 ^ t ≤ r.2 + 1 ∧
      e.node = if e.subHeight = 1 then Node.leaf (value G n h k e.min) else Node.inner (nodeAt G k (h - 1 - t) j) := by
  obtain ⟨_, h1, h2, j, hj, hmin, hmax, hnode⟩ := hc.nodes e he
  obtain ⟨t1, t2, t3⟩ := hc.tiles.mem he
  obtain ⟨t, ht⟩ : ∃ t, e.subHeight = t + 1 := ⟨e.subHeight - 1, by omega⟩
  have e1 : h - e.subHeight = h - 1 - t := by omega
  have e2 : e.subHeight - 1 = t := by omega
  rw [e1] at hj hnode
  rw [e2] at hmin hmax
  refine ⟨t, j, ht, by omega, hj, hmin, t1, ?_, hnode⟩
  have : (j + 1) * 2 ^ t = j * 2 ^ t + 2 ^ t := by ring
  omega

theorem keyFrom_real {m : Nat} (hm : m ≤ 62) (P : Nat → Nat → Bool) {r : Nat × Nat} (hr : Accepted (m + 2) r)
    (hP : ∀ t x, r.1 ≤ x → x + 2 ^ t ≤ r.2 + 1 → P t x = true) (k : Val n (m + 1)) :
    keyFrom G n (m + 2) (real (child G n) (cutAt P (m + 1) 0) k) r =
      RCPrf.constrain G n ⟨m + 2, toBytes k⟩ r.1 r.2 := by
  obtain ⟨es0, g0, c0, _⟩ := constrain_gen G n (h := m + 2) (by omega) (by omega) hr []
  obtain ⟨es, g1, c1, hcon⟩ := constrain_gen G n (h := m + 2) (by omega) (by omega) hr (toBytes k)
  have hs := gen_shape G n (m + 2) (m + 2) [] (toBytes k) 0 (maxLeafIndex (m + 2)) r.1 r.2
  rw [g0, g1] at hs
  have hs' : es0.map forget = es.map forget := by simpa using hs
  unfold keyFrom
  rw [c0, c1, Res.map_ok]
  congr 2
  have hφ : ∀ es : List Elem, (es.map fun e => fill e (look G n (real (child G n) (cutAt P (m + 1) 0) k)
      (e.subHeight - 1) e.min)) = (es.map forget).map fun e => fill e (look G n
        (real (child G n) (cutAt P (m + 1) 0) k) (e.subHeight - 1) e.min) := by
    intro es
    rw [List.map_map]
    rfl
  simp only
  rw [hφ, hs', ← hφ]
  conv_rhs => rw [← List.map_id es]
  apply List.map_congr_left
  intro e he
  obtain ⟨t, j, e1, e2, hj, hmin, i1, i2, hnode⟩ := elem_node G n hcon he
  have ej : j < 2 ^ (m + 1 - t) := hj
  have hl := look_real G n P (m + 1) 0 k t j (by omega) ej (Or.inr (by
    rw [Nat.zero_add, ← hmin]; exact hP t e.min i1 i2))
  have et : e.subHeight - 1 = t := by omega
  rw [et, hmin, hl]
  show fill e _ = e
  have hfill : (if e.subHeight = 1 then Node.leaf (content G n (m + 1) (toBytes k) t (j * 2 ^ t))
      else Node.inner (content G n (m + 1) (toBytes k) t (j * 2 ^ t))) = e.node := by
    rw [hnode]
    by_cases c : e.subHeight = 1
    · rw [if_pos c, if_pos c]
      have ht : t = 0 := by omega
      subst ht
      have : j < 2 ^ (m + 1) := by simpa using ej
      rw [hmin, value]
      simp only [Nat.pow_zero, Nat.mul_one]
      rw [content_leaf G n (m + 1) _ j (by omega) this]
      rfl
    · rw [if_neg c, if_neg c, content_node G n (m + 1) _ t j (by omega) (by omega) ej]
      rfl
  unfold fill
  rw [hfill]

theorem valueFrom_real {m : Nat} (hm : m ≤ 61) (P : Nat → Nat → Bool) {q : Nat} (hq : q < 2 ^ (m + 1))
    (k : Val n (m + 1)) :
    valueFrom G n (real (child G n) (cutAt P (m + 1) 0) k) q = RCPrf.eval G n ⟨m + 2, toBytes k⟩ q := by
  have hl := look_real G n P (m + 1) 0 k 0 q (by omega) (by simpa using hq) (Or.inl rfl)
  simp only [Nat.pow_zero, Nat.mul_one] at hl
  rw [RCPrf.eval_ok (p := ⟨m + 2, toBytes k⟩) (by simp) (by simp; omega) (by simpa using hq)]
  unfold valueFrom
  rw [hl, content_leaf G n (m + 1) _ q (by omega) hq]
  rfl

/-! ### Leaves that are opened one by one are uniform and independent of the rest -/

/-- Leaf `q` is opened by itself. -/
def Reach : {l : Nat} → Cut l → Nat → Prop
  | l, .stop, _ => l = 0
  | l + 1, .split a b, q => if q < 2 ^ l then Reach a q else Reach b (q - 2 ^ l)

theorem reach_cutAt (P : Nat → Nat → Bool) : ∀ (l x q : Nat), q < 2 ^ l →
    (∀ t y, 1 ≤ t → y ≤ x + q → x + q < y + 2 ^ t → P t y = false) → Reach (cutAt P l x) q
  | 0, _, _, _, _ => rfl
  | l + 1, x, q, hq, hP => by
    have c : ¬ P (l + 1) x = true := by
      rw [hP (l + 1) x (by omega) (by omega) (by omega)]
      simp
    have hp : 2 ^ (l + 1) = 2 ^ l * 2 := Nat.pow_succ 2 l
    rw [cutAt_neg c, Reach]
    by_cases c2 : q < 2 ^ l
    · rw [if_pos c2]
      exact reach_cutAt P l x q c2 hP
    · rw [if_neg c2]
      refine reach_cutAt P l (x + 2 ^ l) (q - 2 ^ l) (by omega) fun t y ht h1 h2 => hP t y ht (by omega) (by omega)

variable {n}

/-- Another value in leaf `q`. -/
def put : {l : Nat} → {C : Cut l} → Out (Val n) C → Nat → Block n → Out (Val n) C
  | 0, .stop, .leaf _, _, u => .leaf u
  | _ + 1, .stop, .leaf v, _, _ => .leaf v
  | l + 1, .split _ _, .node x y, q, u =>
    if q < 2 ^ l then .node (put x q u) y else .node x (put y (q - 2 ^ l) u)

theorem E_put {l : Nat} (C : Cut l) : ∀ (q : Nat), Reach C q → ∀ (F : Out (Val n) C → ℚ),
    E F = E (fun o => E (fun u : Block n => F (put o q u))) := by
  induction C with
  | @stop l =>
    intro q hr F
    have : l = 0 := hr
    subst this
    rw [E_stop (fun o => E (fun u : Block n => F (put o q u))), E_stop F]
    simp only [put]
    rw [E_const]
    rfl
  | @split l a b iha ihb =>
    intro q hr F
    rw [Reach] at hr
    by_cases c : q < 2 ^ l
    · rw [if_pos c] at hr
      rw [E_split a b F, E_split a b (fun o => E (fun u : Block n => F (put o q u))), E_comm,
        E_comm (fun x y => E (fun u : Block n => F (put (.node x y) q u)))]
      congr 1
      funext y
      rw [iha q hr (fun x => F (.node x y))]
      simp only [put, c, if_true]
    · rw [if_neg c] at hr
      rw [E_split a b F, E_split a b (fun o => E (fun u : Block n => F (put o q u)))]
      congr 1
      funext x
      rw [ihb _ hr (fun y => F (.node x y))]
      simp only [put, c, if_false]

theorem look_put_same {l : Nat} {C : Cut l} (o : Out (Val n) C) : ∀ (q : Nat) (u : Block n), Reach C q →
    look G n (put o q u) 0 q = toBytes u := by
  induction o with
  | @leaf l v =>
    intro q u hr
    have : l = 0 := hr
    subst this
    rfl
  | @node l a b x y ihx ihy =>
    intro q u hr
    rw [Reach] at hr
    by_cases c : q < 2 ^ l
    · rw [if_pos c] at hr
      simp only [put, c, if_true, look]
      exact ihx q u hr
    · rw [if_neg c] at hr
      simp only [put, c, if_false, look]
      exact ihy _ u hr

/-- Nodes that do not lie above leaf `q` do not depend on it. -/
theorem look_put_other {l : Nat} {C : Cut l} (o : Out (Val n) C) : ∀ (q : Nat) (u : Block n) (t j : Nat),
    q < 2 ^ l → t ≤ l → j < 2 ^ (l - t) → (q < j * 2 ^ t ∨ j * 2 ^ t + 2 ^ t ≤ q) →
    look G n (put o q u) t (j * 2 ^ t) = look G n o t (j * 2 ^ t) := by
  induction o with
  | @leaf l v =>
    intro q u t j hq ht hj hd
    cases l with
    | zero =>
      have e1 : t = 0 := by omega
      subst e1
      have e2 : j = 0 := by simpa using hj
      subst e2
      simp only [Nat.pow_zero] at hq hd
      omega
    | succ l => rfl
  | @node l a b x y ihx ihy =>
    intro q u t j hq ht hj hd
    have hp : 2 ^ (l + 1) = 2 ^ l * 2 := Nat.pow_succ 2 l
    have htl : t ≤ l := by
      by_contra hc
      have e : t = l + 1 := by omega
      subst e
      have e2 : j = 0 := by simpa using hj
      subst e2
      omega
    have e : l + 1 - t = (l - t) + 1 := by omega
    rw [e] at hj
    have hpt : 2 ^ l = 2 ^ (l - t) * 2 ^ t := by rw [← Nat.pow_add]; congr 1; omega
    have hp1 : 2 ^ (l - t + 1) = 2 ^ (l - t) * 2 := Nat.pow_succ 2 _
    have htp : 0 < 2 ^ t := Nat.two_pow_pos _
    by_cases c2 : j < 2 ^ (l - t)
    · have h1 : j * 2 ^ t < 2 ^ l := by rw [hpt]; exact Nat.mul_lt_mul_of_pos_right c2 htp
      by_cases c : q < 2 ^ l
      · simp only [put, c, if_true, look, h1]
        exact ihx q u t j c htl c2 hd
      · simp only [put, c, if_false, look, h1, if_true]
    · have h1 : ¬ j * 2 ^ t < 2 ^ l := by
        rw [hpt]; exact Nat.not_lt.mpr (Nat.mul_le_mul_right _ (by omega))
      by_cases c : q < 2 ^ l
      · simp only [put, c, if_true, look, h1, if_false]
      · simp only [put, c, if_false, look, h1]
        have e2 : j * 2 ^ t - 2 ^ l = (j - 2 ^ (l - t)) * 2 ^ t := by rw [hpt, ← Nat.sub_mul]
        rw [e2]
        exact ihy _ u t (j - 2 ^ (l - t)) (by omega) htl (by omega) (by rw [← e2]; omega)

/-- An average over `m + 1` independent values. -/
theorem E_cons {α : Type} [Fintype α] (m : Nat) (f : (Fin (m + 1) → α) → ℚ) :
    E f = E (fun a : α => E (fun u : Fin m → α => f (Fin.cons a u))) := by
  rw [← E_equiv (Fin.consEquiv fun _ => α) f, E_prod]
  rfl

/-- Leaves that are opened one by one hold independent uniform values, independent of all that `K` depends on. -/
theorem E_values {β : Type} {l : Nat} {C : Cut l} (K : Out (Val n) C → β) : ∀ (qs : List Nat), qs.Nodup →
    (∀ q ∈ qs, q < 2 ^ l ∧ Reach C q ∧ ∀ o u, K (put o q u) = K o) → ∀ (g : β → List (Res Bytes) → ℚ),
    E (fun o => g (K o) (qs.map (valueFrom G n o))) =
      E (fun o => E (fun u : Fin qs.length → Block n => g (K o) (List.ofFn fun i => .ok (toBytes (u i))))) := by
  intro qs
  induction qs with
  | nil =>
    intro _ _ g
    congr 1
    funext o
    simp only [List.map_nil, List.length_nil, List.ofFn_zero]
    rw [E_const]
  | cons q qs ih =>
    intro hnd hq g
    obtain ⟨q1, q2, q3⟩ := hq q List.mem_cons_self
    obtain ⟨hnq, hnd'⟩ := List.nodup_cons.mp hnd
    rw [E_put C q q2]
    have e1 : ∀ (o : Out (Val n) C) (u : Block n),
        g (K (put o q u)) ((q :: qs).map (valueFrom G n (put o q u))) =
          g (K o) (.ok (toBytes u) :: qs.map (valueFrom G n o)) := by
      intro o u
      rw [q3, List.map_cons]
      congr 2
      · unfold valueFrom
        rw [look_put_same G o q u q2]
      · apply List.map_congr_left
        intro q' hq'
        have hne : q' ≠ q := fun h => hnq (h ▸ hq')
        have hlt := (hq q' (List.mem_cons_of_mem _ hq')).1
        have := look_put_other G o q u 0 q' q1 (by omega) (by simpa using hlt) (by simp only [Nat.pow_zero]; omega)
        simp only [Nat.pow_zero, Nat.mul_one] at this
        unfold valueFrom
        rw [this]
    simp only [e1]
    rw [E_comm]
    have e2 : ∀ u : Block n, E (fun o : Out (Val n) C => g (K o) (.ok (toBytes u) :: qs.map (valueFrom G n o))) =
        E (fun o => E (fun w : Fin qs.length → Block n =>
          g (K o) (.ok (toBytes u) :: List.ofFn fun i => .ok (toBytes (w i))))) :=
      fun u => ih hnd' (fun q' hq' => hq q' (List.mem_cons_of_mem _ hq'))
        (fun b vs => g b (.ok (toBytes u) :: vs))
    simp only [e2]
    rw [E_comm]
    congr 1
    funext o
    rw [E_cons]
    congr 1
    funext u
    congr 1
    funext w
    congr 1
    rw [List.ofFn_succ]
    rfl

/-! ### How many nodes are hidden -/

theorem hidden_le (M : List Nat) (P : Nat → Nat → Bool) : ∀ (l x : Nat),
    (∀ t y, P t y = false → ∃ q ∈ M, y ≤ q ∧ q < y + 2 ^ t) →
    (cutAt P l x).hidden ≤ l * (M.countP fun q => decide (x ≤ q ∧ q < x + 2 ^ l))
  | 0, x, _ => by simp [cutAt, Cut.hidden]
  | l + 1, x, h => by
    by_cases c : P (l + 1) x = true
    · rw [cutAt_pos c, Cut.hidden]
      exact Nat.zero_le _
    · rw [cutAt_neg c, Cut.hidden]
      have ha := hidden_le M P l x h
      have hb := hidden_le M P l (x + 2 ^ l) h
      have hp : 2 ^ (l + 1) = 2 ^ l + 2 ^ l := by rw [Nat.pow_succ]; omega
      have hc : (M.countP fun q => decide (x ≤ q ∧ q < x + 2 ^ (l + 1))) =
          (M.countP fun q => decide (x ≤ q ∧ q < x + 2 ^ l)) +
            (M.countP fun q => decide (x + 2 ^ l ≤ q ∧ q < x + 2 ^ l + 2 ^ l)) := by
        clear ha hb h
        rw [hp]
        induction M with
        | nil => rfl
        | cons q M ih =>
          simp only [List.countP_cons, ih, decide_eq_true_eq]
          generalize (M.countP fun q => decide (x ≤ q ∧ q < x + 2 ^ l)) = A
          generalize (M.countP fun q => decide (x + 2 ^ l ≤ q ∧ q < x + 2 ^ l + 2 ^ l)) = B
          generalize 2 ^ l = Q
          by_cases c1 : x ≤ q ∧ q < x + Q
          · rw [if_pos (by omega), if_pos c1, if_neg (by omega)]; omega
          · by_cases c2 : x + Q ≤ q ∧ q < x + Q + Q
            · rw [if_pos (by omega), if_neg c1, if_pos c2]; omega
            · rw [if_neg (by omega), if_neg c1, if_neg c2]; omega
      have hpos : 1 ≤ (M.countP fun q => decide (x ≤ q ∧ q < x + 2 ^ (l + 1))) := by
        obtain ⟨q, hq, h1, h2⟩ := h (l + 1) x (by simpa using c)
        exact List.countP_pos_iff.mpr ⟨q, hq, by simp [h1, h2]⟩
      generalize (M.countP fun q => decide (x ≤ q ∧ q < x + 2 ^ (l + 1))) = N at *
      generalize (M.countP fun q => decide (x ≤ q ∧ q < x + 2 ^ l)) = A at *
      generalize (M.countP fun q => decide (x + 2 ^ l ≤ q ∧ q < x + 2 ^ l + 2 ^ l)) = B at *
      have : l * N = l * A + l * B := by rw [hc]; ring
      have : (l + 1) * N = l * N + N := by ring
      omega

theorem gameCut_hidden (l : Nat) (rs : List (Nat × Nat)) (qs : List Nat) (hrs : ∀ r ∈ rs, r.1 ≤ r.2) :
    (gameCut l rs qs).hidden ≤ l * (qs.length + 2 * rs.length) := by
  have h := hidden_le (qs ++ (rs.map Prod.fst ++ rs.map Prod.snd))
    (fun t x => inside rs t x || apart rs qs t x) l 0 (by
    intro t y hP
    rw [Bool.or_eq_false_iff] at hP
    obtain ⟨h1, h2⟩ := hP
    unfold apart at h2
    rw [Bool.and_eq_false_iff] at h2
    rcases h2 with h2 | h2
    · rw [List.all_eq_false] at h2
      obtain ⟨q, hq, hc⟩ := h2
      simp only [Bool.or_eq_true, decide_eq_true_eq, not_or, Nat.not_lt, Nat.not_le] at hc
      exact ⟨q, List.mem_append_left _ hq, hc⟩
    · rw [List.all_eq_false] at h2
      obtain ⟨r, hr, hc⟩ := h2
      simp only [Bool.or_eq_true, decide_eq_true_eq, not_or, Nat.not_lt, Nat.not_le] at hc
      unfold inside at h1
      rw [List.any_eq_false] at h1
      have hn := h1 r hr
      simp only [Bool.and_eq_true, decide_eq_true_eq, not_and, Nat.not_le] at hn
      have := hrs r hr
      by_cases c : y ≤ r.1
      · exact ⟨r.1, List.mem_append_right _ (List.mem_append_left _ (List.mem_map_of_mem hr)), c, hc.2⟩
      · exact ⟨r.2, List.mem_append_right _ (List.mem_append_right _ (List.mem_map_of_mem hr)), hc.1,
          by have := hn (by omega); omega⟩)
  refine Nat.le_trans h (Nat.mul_le_mul_left _ (Nat.le_trans List.countP_le_length ?_))
  simp only [List.length_append, List.length_map]
  omega

end Verif.RCPrf.Game
