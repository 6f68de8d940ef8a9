import Verif.WideSum

/-!
# Transcripts of a wide permutation made of random functions
-/

namespace Verif.Wide

open Verif Verif.Avg Verif.Oracle Verif.Fresh

set_option linter.unusedSectionVars false

variable {ℓ : Nat} {V : Type} [CommRing V] [Fintype V] [DecidableEq V] [h2 : Fact ((2 : V) = 0)]

/-- A string and its image, with the values that the functions for the partial blocks may have; `d` is the direction of the question (`true`: the image was
given). -/
structure Ety (ℓ : Nat) (V : Type) where
  d : Bool
  M : Side ℓ V
  C : Side ℓ V
  bu : Finset V
  bv : Finset V

def Ety.pick (d : Bool) (e : Ety ℓ V) : Side ℓ V := if d then e.C else e.M

/-- The positions that have a pair of blocks, with the pairs. -/
def Ety.pos (e : Ety ℓ V) : List (Fin ℓ × (V × V) × (V × V)) := (List.finRange ℓ).filterMap fun j =>
  (e.M.blk j).bind fun p => (e.C.blk j).map fun q => (j, p, q)

theorem mem_pos {e : Ety ℓ V} {j : Fin ℓ} {p q : V × V} : (j, p, q) ∈ e.pos ↔ e.M.blk j = some p ∧ e.C.blk j = some q := by
  unfold Ety.pos
  rw [List.mem_filterMap]
  constructor
  · rintro ⟨i, -, h⟩
    obtain ⟨p', h1, h'⟩ := Option.bind_eq_some_iff.1 h
    obtain ⟨q', h2, h''⟩ := Option.map_eq_some_iff.1 h'
    simp only [Prod.mk.injEq] at h''
    obtain ⟨rfl, rfl, rfl⟩ := h''
    exact ⟨h1, h2⟩
  · rintro ⟨h1, h2⟩
    exact ⟨j, List.mem_finRange j, by rw [h1, h2]; rfl⟩

theorem pos_pairwise (e : Ety ℓ V) : e.pos.Pairwise fun a b => a.1 ≠ b.1 := by
  unfold Ety.pos
  rw [List.pairwise_filterMap]
  refine (List.nodup_finRange ℓ).imp ?_
  intro i j hij a ha b hb h
  obtain ⟨p', h1, h'⟩ := Option.bind_eq_some_iff.1 ha
  obtain ⟨q', h2, rfl⟩ := Option.map_eq_some_iff.1 h'
  obtain ⟨p', h1, h'⟩ := Option.bind_eq_some_iff.1 hb
  obtain ⟨q', h2, rfl⟩ := Option.map_eq_some_iff.1 h'
  exact hij h

theorem pos_length (e : Ety ℓ V) : e.pos.length ≤ ℓ := by
  unfold Ety.pos
  refine le_trans (List.length_filterMap_le _ _) ?_
  rw [List.length_finRange]

def orient (d : Bool) (x : Fin ℓ × (V × V) × (V × V)) : Edge ℓ V := if d then ((x.1, x.2.2), (x.1, x.2.1)) else ((x.1, x.2.1), (x.1, x.2.2))

def Ety.edges (e : Ety ℓ V) : List (Edge ℓ V) := e.pos.map (orient e.d)

def sx (ω : Fn ℓ V) (e : Ety ℓ V) : V := sum ω false e.M
def sy (ω : Fn ℓ V) (e : Ety ℓ V) : V := sum ω true e.C

/-- What the inner functions have to satisfy. -/
def Ety.conds (e : Ety ℓ V) : List (Cond ℓ V) :=
  ⟨fun ω => (.g false, sx ω e), fun ω => e.M.y + sy ω e, {0}⟩ ::
  ⟨fun ω => (.g true, sy ω e), fun ω => e.C.y + sx ω e, {0}⟩ ::
  ⟨fun ω => (.cu, sx ω e + sy ω e), fun _ => 0, e.bu⟩ ::
  ⟨fun ω => (.cv, sx ω e + sy ω e), fun _ => 0, e.bv⟩ ::
  e.pos.map fun x => ⟨fun ω => (.k x.1, sx ω e + sy ω e), fun ω => w ω (x.1, x.2.1) + X ω (x.1, x.2.2), {0}⟩

/-- The functions map the string to its image. -/
def Meets (ω : Fn ℓ V) (e : Ety ℓ V) : Prop := (∀ a ∈ e.edges, Ok ω a) ∧ ∀ c ∈ e.conds, c.Holds ω

/-- The probability with fresh functions. -/
def Ety.wt (e : Ety ℓ V) : ℚ := (1 / Fintype.card V) ^ e.pos.length * (e.conds.map fun c => (c.B.card : ℚ) / Fintype.card V).prod

/-- Lists, the newest first, in which questions are not repeated and answers are new. -/
def GoodS : List (Ety ℓ V) → Prop
  | [] => True
  | e :: G => GoodS G ∧ (∀ e' ∈ G, e'.pick e.d ≠ e.pick e.d) ∧ (∀ e' ∈ G, (e'.pick (!e.d)).y ≠ (e.pick (!e.d)).y) ∧
      ∀ j p, (e.pick (!e.d)).blk j = some p → (∀ p', (e.pick e.d).blk j = some p' → p'.2 ≠ p.2) ∧
        ∀ e' ∈ G, ∀ d p', (e'.pick d).blk j = some p' → p'.2 ≠ p.2

theorem mem_nodes_map {d : Bool} {l : List (Fin ℓ × (V × V) × (V × V))} {n : Node ℓ V} :
    n ∈ nodes (l.map (orient d)) ↔ ∃ x ∈ l, n = (x.1, x.2.1) ∨ n = (x.1, x.2.2) := by
  unfold nodes
  simp only [List.mem_flatMap, List.mem_map, List.mem_cons, List.not_mem_nil, or_false]
  constructor
  · rintro ⟨_, ⟨x, hx, rfl⟩, h⟩
    refine ⟨x, hx, ?_⟩
    unfold orient at h
    cases d
    · exact h
    · exact h.symm
  · rintro ⟨x, hx, h⟩
    refine ⟨_, ⟨x, hx, rfl⟩, ?_⟩
    unfold orient
    cases d
    · exact h
    · exact h.symm

theorem nodes_append (E F : List (Edge ℓ V)) : nodes (E ++ F) = nodes E ++ nodes F := List.flatMap_append

theorem goodE_append {E : List (Edge ℓ V)} (hE : GoodE E) : ∀ l : List (Edge ℓ V), l.Pairwise (fun a b => a.2.1 ≠ b.2.1) →
    (∀ a ∈ l, a.1.1 = a.2.1 ∧ a.1.2.2 ≠ a.2.2.2 ∧ ∀ n ∈ nodes E, n.1 = a.2.1 → n.2.2 ≠ a.2.2.2) → GoodE (l ++ E)
  | [], _, _ => hE
  | a :: l, hp, h => by
    obtain ⟨p1, p2⟩ := List.pairwise_cons.1 hp
    obtain ⟨h1, h2, h3⟩ := h a List.mem_cons_self
    refine ⟨goodE_append hE l p2 fun b hb => h b (List.mem_cons_of_mem _ hb), h1, h2, fun n hn hpos => ?_⟩
    have hn : n ∈ nodes (l ++ E) := hn
    rw [nodes_append, List.mem_append] at hn
    rcases hn with hn | hn
    · exfalso
      obtain ⟨b, hb, hn⟩ := List.mem_flatMap.1 hn
      have hb1 := (h b (List.mem_cons_of_mem _ hb)).1
      simp only [List.mem_cons, List.not_mem_nil, or_false] at hn
      rcases hn with rfl | rfl
      · exact p1 b hb (by rw [← hpos, hb1])
      · exact p1 b hb hpos.symm
    · exact h3 n hn hpos

def allEdges (G : List (Ety ℓ V)) : List (Edge ℓ V) := G.flatMap Ety.edges

theorem mem_nodes_all {G : List (Ety ℓ V)} {n : Node ℓ V} (h : n ∈ nodes (allEdges G)) : ∃ e ∈ G, ∃ d, (e.pick d).blk n.1 = some n.2 := by
  induction G with
  | nil => simp [allEdges, nodes] at h
  | cons e G ih =>
    unfold allEdges at h
    rw [List.flatMap_cons, nodes_append, List.mem_append] at h
    rcases h with h | h
    · obtain ⟨⟨j, p, q⟩, hx, h⟩ := mem_nodes_map.1 h
      obtain ⟨h1, h2⟩ := mem_pos.1 hx
      rcases h with rfl | rfl
      · exact ⟨e, List.mem_cons_self, false, h1⟩
      · exact ⟨e, List.mem_cons_self, true, h2⟩
    · obtain ⟨e', he, h⟩ := ih h
      exact ⟨e', List.mem_cons_of_mem _ he, h⟩

theorem goodE_all : ∀ {G : List (Ety ℓ V)}, GoodS G → GoodE (allEdges G)
  | [], _ => trivial
  | e :: G, h => by
    obtain ⟨hG, -, -, h⟩ := h
    refine goodE_append (goodE_all hG) e.edges ?_ ?_
    · unfold Ety.edges
      rw [List.pairwise_map]
      refine (pos_pairwise e).imp fun {a b} hab => ?_
      unfold orient
      cases e.d <;> exact hab
    · intro a ha
      obtain ⟨⟨j, p, q⟩, hx, rfl⟩ := List.mem_map.1 ha
      obtain ⟨h1, h2⟩ := mem_pos.1 hx
      unfold orient
      unfold Ety.pick at h
      cases hd : e.d
      · simp only [hd, Bool.not_false, if_true, Bool.false_eq_true, if_false] at h ⊢
        obtain ⟨k1, k2⟩ := h j q h2
        refine ⟨trivial, k1 p h1, fun n hn hp => ?_⟩
        obtain ⟨e', he, d, hb⟩ := mem_nodes_all hn
        rw [hp] at hb
        exact k2 e' he d n.2 hb
      · simp only [hd, Bool.not_true, if_true, Bool.false_eq_true, if_false] at h ⊢
        obtain ⟨k1, k2⟩ := h j p h1
        refine ⟨trivial, k1 q h2, fun n hn hp => ?_⟩
        obtain ⟨e', he, d, hb⟩ := mem_nodes_all hn
        rw [hp] at hb
        exact k2 e' he d n.2 hb

/-- The two strings have pairs at the same positions. -/
def SameShape (e : Ety ℓ V) : Prop := ∀ j, e.M.blk j = none ↔ e.C.blk j = none

theorem nodes_pick {G : List (Ety ℓ V)} {e : Ety ℓ V} (he : e ∈ G) (hs : SameShape e) (d : Bool) (j : Fin ℓ) (p : V × V) (h : (e.pick d).blk j = some p) :
    (j, p) ∈ nodes (allEdges G) := by
  have hn : ∀ n, n ∈ nodes e.edges → n ∈ nodes (allEdges G) := by
    intro n hn
    obtain ⟨a, ha, hn⟩ := List.mem_flatMap.1 hn
    exact List.mem_flatMap.2 ⟨a, List.mem_flatMap.2 ⟨e, he, ha⟩, hn⟩
  apply hn
  unfold Ety.edges
  rw [mem_nodes_map]
  cases d
  · have h1 : e.M.blk j = some p := h
    cases h2 : e.C.blk j with
    | none => rw [(hs j).2 h2] at h1; cases h1
    | some q => exact ⟨(j, p, q), mem_pos.2 ⟨h1, h2⟩, .inl rfl⟩
  · have h1 : e.C.blk j = some p := h
    cases h2 : e.M.blk j with
    | none => rw [(hs j).1 h2] at h1; cases h1
    | some q => exact ⟨(j, q, p), mem_pos.2 ⟨h2, h1⟩, .inr rfl⟩

/-- No two sums are the same. -/
def NoColl (ω : Fn ℓ V) (e e' : Ety ℓ V) : Prop := sx ω e ≠ sx ω e' ∧ sy ω e ≠ sy ω e' ∧ sx ω e + sy ω e ≠ sx ω e' + sy ω e'

theorem pair_coll {G : List (Ety ℓ V)} (hE : GoodE (allEdges G)) (hs : ∀ e ∈ G, SameShape e) {e e' : Ety ℓ V} (he : e ∈ G) (he' : e' ∈ G)
    (hq : e'.pick e.d ≠ e.pick e.d) (hy : (e'.pick (!e.d)).y ≠ (e.pick (!e.d)).y) :
    prob (fun ω => Hge (allEdges G) ω ∧ ¬ NoColl ω e e') ≤ 3 * (1 / Fintype.card V) ^ ((allEdges G).length + 1) := by
  have c1 : prob (fun ω => Hge (allEdges G) ω ∧ sx ω e = sx ω e') ≤ (1 / Fintype.card V) ^ ((allEdges G).length + 1) := by
    cases hd : e.d
    · rw [hd] at hq
      exact coll_question hE false (nodes_pick he (hs e he) false) (nodes_pick he' (hs e' he') false) (Ne.symm hq)
    · rw [hd] at hy
      exact coll_y hE false (Ne.symm hy)
  have c2 : prob (fun ω => Hge (allEdges G) ω ∧ sy ω e = sy ω e') ≤ (1 / Fintype.card V) ^ ((allEdges G).length + 1) := by
    cases hd : e.d
    · rw [hd] at hy
      exact coll_y hE true (Ne.symm hy)
    · rw [hd] at hq
      exact coll_question hE true (nodes_pick he (hs e he) true) (nodes_pick he' (hs e' he') true) (Ne.symm hq)
  have c3 : prob (fun ω => Hge (allEdges G) ω ∧ sx ω e + sy ω e = sx ω e' + sy ω e') ≤ (1 / Fintype.card V) ^ ((allEdges G).length + 1) := by
    refine outer_coll hE (t := .f (!e.d)) (by intro j h; cases h) (by intro h; cases h) (e.pick (!e.d)).y fun ω δ => ?_
    unfold sx sy
    simp only [sum_bump_f]
    unfold Ety.pick at hy ⊢
    cases hd : e.d
    · simp only [hd, Bool.not_false, if_true] at hy ⊢
      simp only [hy, Bool.false_eq_true, false_and, and_self, and_false, if_true, if_false]
      ring
    · simp only [hd, Bool.not_true, Bool.false_eq_true, if_false] at hy ⊢
      simp only [hy, Bool.true_eq_false, false_and, and_self, and_false, if_true, if_false]
      ring
  have h1 : prob (fun ω => Hge (allEdges G) ω ∧ ¬ NoColl ω e e') ≤
      prob (fun ω => (Hge (allEdges G) ω ∧ sx ω e = sx ω e') ∨
        ((Hge (allEdges G) ω ∧ sy ω e = sy ω e') ∨ (Hge (allEdges G) ω ∧ sx ω e + sy ω e = sx ω e' + sy ω e'))) := by
    apply prob_mono
    rintro ω ⟨h, hn⟩
    unfold NoColl at hn
    by_cases a1 : sx ω e = sx ω e'
    · exact .inl ⟨h, a1⟩
    · by_cases a2 : sy ω e = sy ω e'
      · exact .inr (.inl ⟨h, a2⟩)
      · exact .inr (.inr ⟨h, by_contra fun a3 => hn ⟨a1, a2, a3⟩⟩)
  have h2 := prob_or (fun ω => Hge (allEdges G) ω ∧ sx ω e = sx ω e')
    (fun ω => (Hge (allEdges G) ω ∧ sy ω e = sy ω e') ∨ (Hge (allEdges G) ω ∧ sx ω e + sy ω e = sx ω e' + sy ω e'))
  have h3 := prob_or (fun ω => Hge (allEdges G) ω ∧ sy ω e = sy ω e') (fun ω => Hge (allEdges G) ω ∧ sx ω e + sy ω e = sx ω e' + sy ω e')
  linarith

theorem goodS_pairwise : ∀ {G : List (Ety ℓ V)}, GoodS G →
    G.Pairwise fun e e' => e'.pick e.d ≠ e.pick e.d ∧ (e'.pick (!e.d)).y ≠ (e.pick (!e.d)).y
  | [], _ => List.Pairwise.nil
  | _ :: _, h => List.pairwise_cons.2 ⟨fun e' he => ⟨h.2.1 e' he, h.2.2.1 e' he⟩, goodS_pairwise h.1⟩

theorem edges_length : ∀ G : List (Ety ℓ V), (allEdges G).length ≤ G.length * ℓ
  | [] => by simp [allEdges]
  | e :: G => by
    have h1 := edges_length G
    have h2 := pos_length e
    unfold allEdges at h1 ⊢
    rw [List.flatMap_cons, List.length_append, List.length_cons]
    have : e.edges.length = e.pos.length := List.length_map _
    rw [this, Nat.add_mul, Nat.one_mul]
    omega

/-- What is lost when `q` questions are asked. -/
def loss (ℓ : Nat) (N q : ℚ) : ℚ := (2 * (q * ℓ) * (2 * (q * ℓ) - 1) / 2 + 3 * (q * (q - 1) / 2)) / N

theorem nodes_length : ∀ E : List (Edge ℓ V), (nodes E).length = 2 * E.length
  | [] => rfl
  | e :: E => by
    have := nodes_length E
    unfold nodes at this ⊢
    rw [List.flatMap_cons, List.length_append, this, List.length_cons]
    simp only [List.length_cons, List.length_nil]
    ring

/-- The outer functions allow the transcript. -/
theorem outer_prob {G : List (Ety ℓ V)} (hG : GoodS G) (hs : ∀ e ∈ G, SameShape e) :
    (1 - loss ℓ (Fintype.card V) G.length) * (1 / Fintype.card V) ^ (allEdges G).length ≤
      prob (fun ω => Hge (allEdges G) ω ∧ G.Pairwise (NoColl ω)) := by
  have hE := goodE_all hG
  have hc := card_pos (V := V)
  have h1 := prob_pairs (p := Hge (allEdges G)) (R := NoColl) (c := 3 * (1 / (Fintype.card V : ℚ)) ^ ((allEdges G).length + 1)) G
    ((goodS_pairwise hG).imp_of_mem fun {e e'} he he' h => pair_coll hE hs he he' h.1 h.2)
  have h2 := spread_prob (V := V) (nodes (allEdges G))
  have h3 := hge_prob (V := V) hE
  have h4 : prob (Hge (allEdges G)) ≤ prob (fun ω => Hge (allEdges G) ω ∧ G.Pairwise (NoColl ω)) + prob (fun ω => Hge (allEdges G) ω ∧ ¬ G.Pairwise (NoColl ω)) := by
    refine le_trans (prob_mono fun ω h => ?_) (prob_or _ _)
    by_cases hp : G.Pairwise (NoColl ω)
    · exact .inl ⟨h, hp⟩
    · exact .inr ⟨h, hp⟩
  rw [nodes_length] at h2
  have hl : ((allEdges G).length : ℚ) ≤ (G.length : ℚ) * ℓ := by exact_mod_cast edges_length G
  push_cast at h2
  generalize hσ : ((allEdges G).length : ℚ) = σ at h2 hl
  have hσ0 : 0 ≤ σ := by rw [← hσ]; positivity
  have hσ1 : σ = 0 ∨ 1 ≤ σ := by
    rw [← hσ]
    rcases Nat.eq_zero_or_pos (allEdges G).length with h | h
    · left; rw [h]; rfl
    · right; exact_mod_cast h
  have hle : (2 * σ) * (2 * σ - 1) / 2 ≤ 2 * ((G.length : ℚ) * ℓ) * (2 * ((G.length : ℚ) * ℓ) - 1) / 2 := by
    rcases hσ1 with h | h
    · rw [h]
      have : (0 : ℚ) ≤ 2 * ((G.length : ℚ) * ℓ) * (2 * ((G.length : ℚ) * ℓ) - 1) / 2 := by
        rcases Nat.eq_zero_or_pos (G.length * ℓ) with h' | h'
        · have : (G.length : ℚ) * ℓ = 0 := by exact_mod_cast h'
          rw [this]; norm_num
        · have : (1 : ℚ) ≤ (G.length : ℚ) * ℓ := by exact_mod_cast h'
          have : 0 ≤ 2 * ((G.length : ℚ) * ℓ) - 1 := by linarith
          positivity
      linarith
    · nlinarith
  have hn : (0 : ℚ) ≤ (1 / (Fintype.card V : ℚ)) ^ (allEdges G).length := by positivity
  have hx : (1 - loss ℓ (Fintype.card V) G.length) * (1 / (Fintype.card V : ℚ)) ^ (allEdges G).length ≤
      (1 - 2 * σ * (2 * σ - 1) / 2 * (1 / Fintype.card V)) * (1 / (Fintype.card V : ℚ)) ^ (allEdges G).length -
        (G.length : ℚ) * (G.length - 1) / 2 * (3 * (1 / (Fintype.card V : ℚ)) ^ ((allEdges G).length + 1)) := by
    have e : (1 - 2 * σ * (2 * σ - 1) / 2 * (1 / (Fintype.card V : ℚ))) * (1 / (Fintype.card V : ℚ)) ^ (allEdges G).length -
        (G.length : ℚ) * (G.length - 1) / 2 * (3 * (1 / (Fintype.card V : ℚ)) ^ ((allEdges G).length + 1)) =
        (1 - (2 * σ * (2 * σ - 1) / 2 + 3 * ((G.length : ℚ) * (G.length - 1) / 2)) * (1 / Fintype.card V)) *
          (1 / (Fintype.card V : ℚ)) ^ (allEdges G).length := by
      rw [pow_succ]
      ring
    rw [e]
    refine mul_le_mul_of_nonneg_right ?_ hn
    unfold loss
    rw [div_eq_mul_one_div _ (Fintype.card V : ℚ)]
    have : (0 : ℚ) ≤ 1 / Fintype.card V := by positivity
    have := mul_le_mul_of_nonneg_right hle this
    linarith
  have hy := mul_le_mul_of_nonneg_right h2 hn
  rw [h3] at h4
  linarith

theorem conds_outer (e : Ety ℓ V) : ∀ c ∈ e.conds, c.Outer := by
  have s1 : ∀ ω (x : Tag ℓ × V) δ, Inner x.1 → sx (bump ω x δ) e = sx ω e := fun ω x δ h => sum_inner h ω false x.2 δ e.M
  have s2 : ∀ ω (x : Tag ℓ × V) δ, Inner x.1 → sy (bump ω x δ) e = sy ω e := fun ω x δ h => sum_inner h ω true x.2 δ e.C
  intro c hc
  unfold Ety.conds at hc
  simp only [List.mem_cons, List.mem_map] at hc
  rcases hc with rfl | rfl | rfl | rfl | ⟨x, -, rfl⟩
  · exact ⟨fun _ => trivial, fun ω z δ h => by simp only [s1 ω z δ h, s2 ω z δ h, and_self]⟩
  · exact ⟨fun _ => trivial, fun ω z δ h => by simp only [s1 ω z δ h, s2 ω z δ h, and_self]⟩
  · exact ⟨fun _ => trivial, fun ω z δ h => by simp only [s1 ω z δ h, s2 ω z δ h, and_self]⟩
  · exact ⟨fun _ => trivial, fun ω z δ h => by simp only [s1 ω z δ h, s2 ω z δ h, and_self]⟩
  · refine ⟨fun _ => trivial, fun ω z δ h => ?_⟩
    have a := w_bump (V := V) (inner_h h) ω z.2 δ
    have b := X_bump (V := V) (inner_h h) (inner_e h) ω z.2 δ
    simp only [s1 ω z δ h, s2 ω z δ h, true_and]
    rw [a, b]

theorem conds_tags (e : Ety ℓ V) (ω : Fn ℓ V) : e.conds.Pairwise fun c c' => c.pt ω ≠ c'.pt ω := by
  unfold Ety.conds
  simp only [List.pairwise_cons, List.mem_cons, List.mem_map, List.pairwise_map]
  refine ⟨?_, ?_, ?_, ?_, ?_⟩
  · rintro c (rfl | rfl | rfl | ⟨x, -, rfl⟩) <;> intro h <;> simp at h
  · rintro c (rfl | rfl | ⟨x, -, rfl⟩) <;> intro h <;> simp at h
  · rintro c (rfl | ⟨x, -, rfl⟩) <;> intro h <;> simp at h
  · rintro c ⟨x, -, rfl⟩ h; simp at h
  · refine (pos_pairwise e).imp fun {a b} hab h => hab ?_
    simpa using h

theorem conds_pts {e : Ety ℓ V} {c : Cond ℓ V} (hc : c ∈ e.conds) (ω : Fn ℓ V) :
    c.pt ω = (.g false, sx ω e) ∨ c.pt ω = (.g true, sy ω e) ∨ c.pt ω = (.cu, sx ω e + sy ω e) ∨ c.pt ω = (.cv, sx ω e + sy ω e) ∨
      ∃ j, c.pt ω = (.k j, sx ω e + sy ω e) := by
  unfold Ety.conds at hc
  simp only [List.mem_cons, List.mem_map] at hc
  rcases hc with rfl | rfl | rfl | rfl | ⟨x, -, rfl⟩
  · exact .inl rfl
  · exact .inr (.inl rfl)
  · exact .inr (.inr (.inl rfl))
  · exact .inr (.inr (.inr (.inl rfl)))
  · exact .inr (.inr (.inr (.inr ⟨_, rfl⟩)))

theorem conds_cross {e e' : Ety ℓ V} {ω : Fn ℓ V} (h : NoColl ω e e') {c c' : Cond ℓ V} (hc : c ∈ e.conds) (hc' : c' ∈ e'.conds) : c.pt ω ≠ c'.pt ω := by
  obtain ⟨h1, h2, h3⟩ := h
  rcases conds_pts hc ω with a | a | a | a | ⟨j, a⟩ <;> rcases conds_pts hc' ω with b | b | b | b | ⟨j', b⟩ <;> rw [a, b] <;>
    simp [h1, h2, h3]

theorem conds_all {ω : Fn ℓ V} : ∀ {G : List (Ety ℓ V)}, G.Pairwise (NoColl ω) → (G.flatMap Ety.conds).Pairwise fun c c' => c.pt ω ≠ c'.pt ω
  | [], _ => List.Pairwise.nil
  | e :: G, h => by
    obtain ⟨h1, h2⟩ := List.pairwise_cons.1 h
    rw [List.flatMap_cons, List.pairwise_append]
    refine ⟨conds_tags e ω, conds_all h2, fun c hc c' hc' => ?_⟩
    obtain ⟨e', he, hc'⟩ := List.mem_flatMap.1 hc'
    exact conds_cross (h1 e' he) hc hc'

theorem wt_list : ∀ G : List (Ety ℓ V), (G.map Ety.wt).prod =
    (1 / (Fintype.card V : ℚ)) ^ (allEdges G).length * ((G.flatMap Ety.conds).map fun c => (c.B.card : ℚ) / Fintype.card V).prod
  | [] => by simp [allEdges]
  | e :: G => by
    have ih := wt_list G
    unfold allEdges at ih ⊢
    rw [List.map_cons, List.prod_cons, ih, List.flatMap_cons, List.flatMap_cons, List.length_append, List.map_append, List.prod_append, pow_add]
    unfold Ety.wt
    have : e.edges.length = e.pos.length := List.length_map _
    rw [this]
    ring

/-- Good transcripts are nearly as probable as with fresh answers. -/
theorem list_prob {G : List (Ety ℓ V)} (hG : GoodS G) (hs : ∀ e ∈ G, SameShape e) :
    (1 - loss ℓ (Fintype.card V) G.length) * (G.map Ety.wt).prod ≤ prob (fun ω => ∀ e ∈ G, Meets ω e) := by
  have h1 := outer_prob hG hs
  have h2 := conds_prob (ℓ := ℓ) (p := fun ω => Hge (allEdges G) ω ∧ G.Pairwise (NoColl ω)) ?_ (G.flatMap Ety.conds) ?_ fun ω h => conds_all h.2
  · have h3 : prob (fun ω => (Hge (allEdges G) ω ∧ G.Pairwise (NoColl ω)) ∧ ∀ c ∈ G.flatMap Ety.conds, c.Holds ω) ≤ prob (fun ω => ∀ e ∈ G, Meets ω e) := by
      apply prob_mono
      rintro ω ⟨⟨⟨-, h⟩, -⟩, h'⟩ e he
      exact ⟨fun a ha => h a (List.mem_flatMap.2 ⟨e, he, ha⟩), fun c hc => h' c (List.mem_flatMap.2 ⟨e, he, hc⟩)⟩
    rw [wt_list, ← mul_assoc]
    refine le_trans (mul_le_mul_of_nonneg_right h1 ?_) (le_trans (le_of_eq h2.symm) h3)
    apply List.prod_nonneg
    intro a ha
    obtain ⟨c, -, rfl⟩ := List.mem_map.1 ha
    positivity
  · rintro ω ⟨t, z⟩ δ hi ⟨h, hp⟩
    refine ⟨hge_bump (inner_h hi) (inner_e hi) z δ h, hp.imp fun {e e'} hn => ?_⟩
    unfold NoColl sx sy at hn ⊢
    simp only [sum_inner hi]
    exact hn
  · intro c hc
    obtain ⟨e, -, hc⟩ := List.mem_flatMap.1 hc
    exact conds_outer e c hc

/-! ## The system -/

theorem quad_mono {a b : Nat} (h : a ≤ b) : (a : ℚ) * (a - 1) ≤ (b : ℚ) * (b - 1) := by
  have h' : (a : ℚ) ≤ b := by exact_mod_cast h
  rcases Nat.eq_zero_or_pos a with h0 | h0
  · subst h0
    rcases Nat.eq_zero_or_pos b with h1 | h1
    · subst h1; exact le_rfl
    · have : (1 : ℚ) ≤ b := by exact_mod_cast h1
      have : (0 : ℚ) ≤ (b : ℚ) * (b - 1) := mul_nonneg (by positivity) (by linarith)
      simpa using this
  · have : (1 : ℚ) ≤ a := by exact_mod_cast h0
    nlinarith

theorem loss_mono {N : ℚ} (hN : 0 < N) {a b : Nat} (h : a ≤ b) : loss ℓ N a ≤ loss ℓ N b := by
  unfold loss
  refine div_le_div_of_nonneg_right ?_ hN.le
  have h1 := quad_mono h
  have h2 := quad_mono (Nat.mul_le_mul_left 2 (Nat.mul_le_mul_right ℓ h))
  push_cast at h2
  linarith

theorem loss_nonneg {N : ℚ} (hN : 0 < N) (q : Nat) : 0 ≤ loss ℓ N q := by
  have := loss_mono (ℓ := ℓ) hN (Nat.zero_le q)
  refine le_trans (le_of_eq ?_) this
  simp [loss]

section
variable {I : Type} [Fintype I] [DecidableEq I] {W : I → Type} [∀ i, Fintype (W i)] [∀ i, DecidableEq (W i)] [∀ i, Nonempty (W i)]
variable (side : ∀ i, W i → Side ℓ V) (BU BV : ∀ i, W i → W i → Finset V)

def ety (e : Ent W) : Ety ℓ V :=
  ⟨e.1, side e.2.1 e.2.2.1, side e.2.1 e.2.2.2, BU e.2.1 e.2.2.1 e.2.2.2, BV e.2.1 e.2.2.1 e.2.2.2⟩

theorem ety_pick (e : Ent W) (d : Bool) : (ety side BU BV e).pick d = side e.2.1 (if d then e.2.2.2 else e.2.2.1) := by
  unfold Ety.pick ety
  cases d <;> rfl

theorem pick_question (x : Bool × Str W) (b : W x.2.1) : (ety side BU BV (ent x b)).pick x.1 = side x.2.1 x.2.2 := by
  rw [ety_pick]
  unfold ent mk
  cases x.1 <;> rfl

theorem pick_answer (x : Bool × Str W) (b : W x.2.1) : (ety side BU BV (ent x b)).pick (!x.1) = side x.2.1 b := by
  rw [ety_pick]
  unfold ent mk
  cases x.1 <;> rfl

/-- How many second blocks and last blocks are known after `j` questions. -/
def step1 (ℓ : Nat) (N : ℚ) (j : Nat) : ℚ := (ℓ * (2 * j + 1) + j) / N

theorem new_answer (hinj : ∀ i i' (a : W i) (a' : W i'), side i a = side i' a' → (⟨i, a⟩ : Str W) = ⟨i', a'⟩)
    (hy : ∀ i z, prob (fun b : W i => (side i b).y = z) ≤ 1 / Fintype.card V)
    (hp : ∀ i j z, prob (fun b : W i => ∃ p, (side i b).blk j = some p ∧ p.2 = z) ≤ 1 / Fintype.card V)
    (L : List (Ent W)) (x : Bool × Str W) (hL : GoodS (L.map (ety side BU BV))) (hx : ¬ ∃ b, Mem L x.2.1 (mk x.1 x.2.2 b)) :
    prob (fun b => ¬ GoodS ((ent x b :: L).map (ety side BU BV))) ≤ step1 ℓ (Fintype.card V) L.length := by
  let G := L.map (ety side BU BV)
  let bad : Fin ℓ → List V := fun j => (((side x.2.1 x.2.2).blk j).toList ++ G.flatMap fun e => (e.M.blk j).toList ++ (e.C.blk j).toList).map Prod.snd
  have hc := card_pos (V := V)
  have hlen : ∀ j, ((bad j).length : ℚ) ≤ 2 * L.length + 1 := by
    intro j
    have tl : ∀ o : Option (V × V), o.toList.length ≤ 1 := by intro o; cases o <;> simp
    have h1 : ∀ G : List (Ety ℓ V), (G.flatMap fun e => (e.M.blk j).toList ++ (e.C.blk j).toList).length ≤ 2 * G.length := by
      intro G
      induction G with
      | nil => simp
      | cons e G ih =>
        rw [List.flatMap_cons, List.length_append, List.length_append, List.length_cons]
        have := tl (e.M.blk j)
        have := tl (e.C.blk j)
        omega
    have h2 := h1 G
    have h3 := tl ((side x.2.1 x.2.2).blk j)
    have : (bad j).length ≤ 2 * L.length + 1 := by
      show (List.map _ _).length ≤ _
      rw [List.length_map, List.length_append]
      have : G.length = L.length := List.length_map _
      omega
    exact_mod_cast this
  have p1 : prob (fun b : W x.2.1 => True ∧ ∃ e ∈ G, (side x.2.1 b).y = (e.pick (!x.1)).y) ≤ G.length * (1 / Fintype.card V) :=
    prob_exists (r := fun (e : Ety ℓ V) (b : W x.2.1) => (side x.2.1 b).y = (e.pick (!x.1)).y) G fun e _ => le_trans (prob_mono fun b h => h.2) (hy x.2.1 _)
  have p2 : prob (fun b : W x.2.1 => True ∧ ∃ j ∈ List.finRange ℓ, ∃ z ∈ bad j, ∃ p, (side x.2.1 b).blk j = some p ∧ p.2 = z) ≤
      (List.finRange ℓ).length * ((2 * L.length + 1) * (1 / Fintype.card V)) := by
    refine prob_exists (r := fun (j : Fin ℓ) (b : W x.2.1) => ∃ z ∈ bad j, ∃ p, (side x.2.1 b).blk j = some p ∧ p.2 = z) (List.finRange ℓ) fun j _ => ?_
    refine le_trans (prob_exists (r := fun (z : V) (b : W x.2.1) => ∃ p, (side x.2.1 b).blk j = some p ∧ p.2 = z) (bad j)
      fun z _ => le_trans (prob_mono fun b h => h.2) (hp x.2.1 j z)) ?_
    exact mul_le_mul_of_nonneg_right (hlen j) (by positivity)
  have p3 : prob (fun b => ¬ GoodS ((ent x b :: L).map (ety side BU BV))) ≤
      prob (fun b : W x.2.1 => (True ∧ ∃ e ∈ G, (side x.2.1 b).y = (e.pick (!x.1)).y) ∨
        (True ∧ ∃ j ∈ List.finRange ℓ, ∃ z ∈ bad j, ∃ p, (side x.2.1 b).blk j = some p ∧ p.2 = z)) := by
    apply prob_mono
    intro b hn
    by_contra hno
    push Not at hno
    obtain ⟨n1, n2⟩ := hno
    apply hn
    rw [List.map_cons]
    have hd : (ety side BU BV (ent x b)).d = x.1 := rfl
    refine ⟨hL, ?_, ?_, ?_⟩
    · intro e' he
      rw [hd, pick_question]
      obtain ⟨o, ho, rfl⟩ := List.mem_map.1 he
      rw [ety_pick]
      intro h
      have h' := hinj _ _ _ _ h
      apply hx
      obtain ⟨od, oi, op⟩ := o
      obtain ⟨xd, xi, xa⟩ := x
      simp only [Sigma.mk.injEq] at h'
      obtain ⟨rfl, h'⟩ := h'
      have h' := eq_of_heq h'
      refine ⟨if xd then op.1 else op.2, od, ?_⟩
      have : mk xd xa (if xd then op.1 else op.2) = op := by
        rw [← h']
        unfold mk
        cases xd <;> rfl
      simp only
      rw [this]
      exact ho
    · intro e' he
      rw [hd, pick_answer]
      exact fun h => n1 trivial e' he h.symm
    · intro j p hj
      rw [hd, pick_answer] at hj
      rw [hd, pick_question]
      refine ⟨fun p' hp' h => ?_, fun e' he d p' hp' h => ?_⟩
      · refine n2 trivial j (List.mem_finRange j) p'.2 (List.mem_map.2 ⟨p', List.mem_append.2 (.inl ?_), rfl⟩) p hj h.symm
        rw [hp']; simp
      · refine n2 trivial j (List.mem_finRange j) p'.2 (List.mem_map.2 ⟨p', List.mem_append.2 (.inr (List.mem_flatMap.2 ⟨e', he, ?_⟩)), rfl⟩) p hj h.symm
        rw [List.mem_append]
        unfold Ety.pick at hp'
        cases d
        · left; rw [show e'.M.blk j = some p' from hp']; simp
        · right; rw [show e'.C.blk j = some p' from hp']; simp
  have p4 := prob_or (fun b : W x.2.1 => True ∧ ∃ e ∈ G, (side x.2.1 b).y = (e.pick (!x.1)).y)
    (fun b : W x.2.1 => True ∧ ∃ j ∈ List.finRange ℓ, ∃ z ∈ bad j, ∃ p, (side x.2.1 b).blk j = some p ∧ p.2 = z)
  have e : step1 ℓ (Fintype.card V) L.length = (L.length : ℚ) * (1 / Fintype.card V) + (ℓ : ℚ) * ((2 * L.length + 1) * (1 / Fintype.card V)) := by
    unfold step1
    ring
  rw [show G.length = L.length from List.length_map _] at p1
  rw [List.length_finRange] at p2
  linarith

theorem sum_step1 (N : ℚ) (q : Nat) : ∑ j ∈ Finset.range q, step1 ℓ N j = ((ℓ : ℚ) * q ^ 2 + q * (q - 1) / 2) / N := by
  induction q with
  | zero => simp
  | succ q ih =>
    rw [Finset.sum_range_succ, ih]
    unfold step1
    push_cast
    ring

/-- A system whose permutations contain all that the functions allow looks fresh. -/
theorem system (P : Fn ℓ V → Fam W) (hP : ∀ ω (e : Ent W), Meets ω (ety side BU BV e) → P ω e.2.1 e.2.2.1 = e.2.2.2)
    (hinj : ∀ i i' (a : W i) (a' : W i'), side i a = side i' a' → (⟨i, a⟩ : Str W) = ⟨i', a'⟩)
    (hs : ∀ e : Ent W, SameShape (ety side BU BV e)) (hw : ∀ e : Ent W, 1 / (Fintype.card (W e.2.1) : ℚ) ≤ (ety side BU BV e).wt)
    (hy : ∀ i z, prob (fun b : W i => (side i b).y = z) ≤ 1 / Fintype.card V)
    (hp : ∀ i j z, prob (fun b : W i => ∃ p, (side i b).blk j = some p ∧ p.2 = z) ≤ 1 / Fintype.card V)
    {q : Nat} {A : Att (Bool × Str W) (Str W)} (hA : AtMost q A) :
    |E (fun ω => play (ans (P ω)) A) - game (fun _ b => if b then 1 else 0) [] A| ≤
      loss ℓ (Fintype.card V) q + ((ℓ : ℚ) * q ^ 2 + q * (q - 1) / 2) / Fintype.card V := by
  have hc := card_pos (V := V)
  rw [← sum_step1]
  refine close (W := W) P (Good := fun L => GoodS (L.map (ety side BU BV))) (loss_nonneg hc q) ?_ trivial ?_ (new_answer side BU BV hinj hy hp) hA
  · intro L hL hq
    have hw' : Fresh.wt L ≤ ((L.map (ety side BU BV)).map Ety.wt).prod := by
      unfold Fresh.wt
      rw [List.map_map]
      clear hL hq
      induction L with
      | nil => exact le_rfl
      | cons e L ih =>
        rw [List.map_cons, List.map_cons, List.prod_cons, List.prod_cons]
        refine mul_le_mul (hw e) ih ?_ (le_trans (by positivity) (hw e))
        exact wt_nonneg L
    by_cases h1 : 1 - loss ℓ (Fintype.card V) q ≤ 0
    · exact le_trans (mul_nonpos_of_nonpos_of_nonneg h1 (wt_nonneg L)) (prob_nonneg _)
    · push Not at h1
      have h2 := loss_mono (ℓ := ℓ) hc hq
      have h3 := list_prob hL (fun e he => by obtain ⟨o, -, rfl⟩ := List.mem_map.1 he; exact hs o)
      rw [List.length_map] at h3
      refine le_trans (mul_le_mul (by linarith) hw' (wt_nonneg L) (by linarith)) (le_trans h3 (prob_mono fun ω h => ?_))
      intro e he
      exact hP ω e (h _ (List.mem_map.2 ⟨e, he, rfl⟩))
  · intro j
    unfold step1
    positivity

end

end Verif.Wide
