import Verif.Io.Base64Props

/-!
# Which texts the base64 decoder accepts, and what it returns for each of them

Nothing here refers to groups or to the two passes of the decoder: a text is a number in base 64, the result a number in base 256.
-/

namespace Verif.Io.Exact

open Verif Verif.Io.Spec

/-- The number with the given digits, the most significant one first. -/
def number (base : Nat) : List Nat → Nat := List.foldl (fun n d => base * n + d) 0

/-- The digits that characters stand for. -/
def digits (a : Bytes) : List Nat := a.map (List.idxOf · alphabet)

/-- The text without white space is `a` followed by `p` signs `=`. -/
def Written (t a : Bytes) (p : Nat) : Prop :=
  t.filter (fun c => c ≠ 0x20 ∧ c ≠ 0x0d ∧ c ≠ 0x0a) = a ++ List.replicate p 0x3d ∧ (∀ c ∈ a, c ∈ alphabet) ∧ p ≤ 2

/-- Carriage returns stand before line feeds, spaces before white space or at the end. -/
def Lines (t : List UInt8) : Prop :=
  (∀ i : Nat, t[i]? = some 0x0d → t[i + 1]? = some 0x0a) ∧
  ∀ (i : Nat) (c : UInt8), t[i]? = some 0x20 → t[i + 1]? = some c → c = 0x20 ∨ c = 0x0d ∨ c = 0x0a

/-- The number of bytes: three for every four characters; two or one for three or two characters with enough signs `=` behind them. -/
def size (m p : Nat) : Nat := 3 * (m / 4) + (if m % 4 = 3 ∧ 1 ≤ p then 2 else if m % 4 = 2 ∧ p = 2 then 1 else 0)

/-! ## Numbers -/

theorem number_from (b : Nat) (l : List Nat) (s : Nat) : List.foldl (fun n d => b * n + d) s l = s * b ^ l.length + number b l := by
  induction l generalizing s with
  | nil => simp [number]
  | cons d l ih =>
    unfold number
    rw [List.foldl_cons, List.foldl_cons, ih, ih (b * 0 + d), List.length_cons, Nat.pow_succ]
    rw [Nat.mul_zero, Nat.zero_add, Nat.add_mul, Nat.mul_comm b s, Nat.mul_assoc, Nat.mul_comm b, Nat.add_assoc]

theorem number_cons (b d : Nat) (l : List Nat) : number b (d :: l) = d * b ^ l.length + number b l := by
  rw [← number_from]
  unfold number
  rw [List.foldl_cons, Nat.mul_zero, Nat.zero_add]

theorem number_append (b : Nat) (l m : List Nat) : number b (l ++ m) = number b l * b ^ m.length + number b m := by
  rw [← number_from]
  unfold number
  rw [List.foldl_append]

theorem number_lt {b : Nat} {l : List Nat} (h : ∀ d ∈ l, d < b) : number b l < b ^ l.length := by
  induction l with
  | nil => simp [number]
  | cons d l ih =>
    rw [number_cons, List.length_cons, Nat.pow_succ]
    have h1 := ih fun d hd => h d (List.mem_cons_of_mem _ hd)
    have h2 := Nat.mul_le_mul_right (b ^ l.length) (show d + 1 ≤ b from h d (by simp))
    rw [Nat.add_mul, Nat.one_mul, Nat.mul_comm b] at h2
    omega

theorem number_inj {b : Nat} {l m : List Nat} (hl : ∀ d ∈ l, d < b) (hm : ∀ d ∈ m, d < b) (e : l.length = m.length) (h : number b l = number b m) : l = m := by
  induction l generalizing m with
  | nil => exact (List.length_eq_zero_iff.1 e.symm).symm
  | cons d l ih =>
    match m, e with
    | d' :: m, e =>
      simp only [List.length_cons, Nat.add_right_cancel_iff] at e
      rw [number_cons, number_cons, e] at h
      have h1 := number_lt fun d hd => hl d (List.mem_cons_of_mem _ hd)
      have h2 := number_lt fun d hd => hm d (List.mem_cons_of_mem _ hd)
      rw [e] at h1
      have hp : 0 < b ^ m.length := by omega
      have h3 := congrArg (· / b ^ m.length) h
      beta_reduce at h3
      rw [Nat.mul_comm, Nat.mul_add_div hp, Nat.mul_comm, Nat.mul_add_div hp, Nat.div_eq_of_lt h1, Nat.div_eq_of_lt h2] at h3
      have hd : d = d' := by omega
      subst hd
      rw [ih (fun d hd => hl d (List.mem_cons_of_mem _ hd)) (fun d hd => hm d (List.mem_cons_of_mem _ hd)) e (by omega)]

def bytes (s : Bytes) : List Nat := s.map UInt8.toNat

theorem bytes_len (s : Bytes) : (bytes s).length = s.length := List.length_map _

theorem toNat8 {n : Nat} (h : n < 256) : (UInt8.ofNat n).toNat = n := by
  rw [UInt8.toNat_ofNat']
  exact Nat.mod_eq_of_lt h

theorem number_unGroup (k : Nat) (g : List Nat) (h : g.length = 4 * k) (hv : ∀ v ∈ g, v < 64) : number 256 (bytes (unGroup g)) = number 64 g := by
  induction k generalizing g with
  | zero =>
    have : g = [] := List.length_eq_zero_iff.1 (by omega)
    subst this
    rfl
  | succ k ih =>
    match g, h with
    | v1 :: v2 :: v3 :: v4 :: g, h =>
      have hg : g.length = 4 * k := by simp at h; omega
      have e := ih g hg fun v h => hv v (by simp [h])
      have l := unGroup_length k g hg
      have a1 := hv v1 (by simp)
      have a2 := hv v2 (by simp)
      have a3 := hv v3 (by simp)
      have a4 := hv v4 (by simp)
      have : bytes (unGroup (v1 :: v2 :: v3 :: v4 :: g)) = [v1 * 4 + v2 / 16, v2 % 16 * 16 + v3 / 4, v3 % 4 * 64 + v4] ++ bytes (unGroup g) := by
        simp only [unGroup, bytes, List.map_cons, List.cons_append, List.nil_append]
        rw [toNat8 (by omega), toNat8 (by omega), toNat8 (by omega)]
      rw [this, number_append, e, show v1 :: v2 :: v3 :: v4 :: g = [v1, v2, v3, v4] ++ g from rfl, number_append, bytes_len, l, hg]
      rw [Nat.pow_mul, Nat.pow_mul, show 256 ^ 3 = 64 ^ 4 from by decide]
      congr 2
      simp only [number, List.foldl_cons, List.foldl_nil]
      omega

theorem decoded_exact (a : List Nat) (p : Nat) (hp : p ≤ 2) (hv : ∀ v ∈ a, v < 64) : (decoded a p).length = size a.length p ∧
    number 256 (bytes (decoded a p)) = number 64 a / 2 ^ (6 * a.length - 8 * (decoded a p).length) := by
  have hg : (a.take (a.length / 4 * 4)).length = 4 * (a.length / 4) := by rw [List.length_take]; omega
  have hr : (a.drop (a.length / 4 * 4)).length = a.length % 4 := by rw [List.length_drop]; omega
  have vg : ∀ v ∈ a.take (a.length / 4 * 4), v < 64 := fun v h => hv v (List.mem_of_mem_take h)
  have vr : ∀ v ∈ a.drop (a.length / 4 * 4), v < 64 := fun v h => hv v (List.mem_of_mem_drop h)
  have n1 := number_unGroup _ _ hg vg
  have l1 := unGroup_length _ _ hg
  have n2 : number 64 a = number 64 (a.take (a.length / 4 * 4)) * 64 ^ (a.length % 4) + number 64 (a.drop (a.length / 4 * 4)) := by
    rw [← hr, ← number_append, List.take_append_drop]
  unfold decoded
  rw [n2, List.length_append, l1]
  unfold bytes at n1 ⊢
  rw [List.map_append, number_append, n1, List.length_map]
  generalize number 64 (a.take (a.length / 4 * 4)) = V
  generalize a.drop (a.length / 4 * 4) = r at hr vr
  unfold size
  generalize hm : a.length = m at hr
  have hq : m = 4 * (m / 4) + m % 4 := by omega
  rw [← hr] at hq ⊢
  generalize m / 4 = k at hq
  have hlt : r.length < 4 := by omega
  clear hr hm
  subst hq
  have fin : ∀ t : Nat, unTail r p = [] → V * 256 ^ (unTail r p).length + number 256 ((unTail r p).map UInt8.toNat) =
      (V * 64 ^ r.length + number 64 r) / 2 ^ (6 * (4 * k + r.length) - 8 * (3 * k + (unTail r p).length)) := fun _ h => by
    rw [h, show 6 * (4 * k + r.length) - 8 * (3 * k + ([] : Bytes).length) = 6 * r.length by simp; omega, Nat.pow_mul, show 2 ^ 6 = 64 from rfl,
      Nat.mul_comm V (64 ^ _), Nat.mul_add_div (Nat.pow_pos (by decide)), Nat.div_eq_of_lt (number_lt vr)]
    simp [number]
  have e1 : 6 * (4 * k + 2) - 8 * (3 * k + 1) = 4 := by omega
  have e2 : 6 * (4 * k + 3) - 8 * (3 * k + 2) = 2 := by omega
  match r, p, hp, hlt with
  | [], p, _, _ => exact ⟨by simp [unTail], fin 0 (by simp [unTail])⟩
  | [v1], p, _, _ => exact ⟨by simp [unTail], fin 0 (by simp [unTail])⟩
  | [v1, v2], 0, _, _ => exact ⟨by simp [unTail], fin 0 (by simp [unTail])⟩
  | [v1, v2], 1, _, _ => exact ⟨by simp [unTail], fin 0 (by simp [unTail])⟩
  | [v1, v2], 2, _, _ =>
    refine ⟨by simp [unTail], ?_⟩
    have a1 := vr v1 (by simp)
    have a2 := vr v2 (by simp)
    simp only [unTail, List.length_cons, List.length_nil, Nat.zero_add, List.map_cons, List.map_nil, number, List.foldl_cons, List.foldl_nil, Nat.reduceAdd]
    rw [toNat8 (by omega), e1]
    omega
  | [v1, v2, v3], 0, _, _ => exact ⟨by simp [unTail], fin 0 (by simp [unTail])⟩
  | [v1, v2, v3], 1, _, _ =>
    refine ⟨by simp [unTail], ?_⟩
    have a1 := vr v1 (by simp)
    have a2 := vr v2 (by simp)
    have a3 := vr v3 (by simp)
    simp only [unTail, List.length_cons, List.length_nil, Nat.zero_add, List.map_cons, List.map_nil, number, List.foldl_cons, List.foldl_nil, Nat.reduceAdd]
    rw [toNat8 (by omega), toNat8 (by omega), e2]
    omega
  | [v1, v2, v3], 2, _, _ =>
    refine ⟨by simp [unTail], ?_⟩
    have a1 := vr v1 (by simp)
    have a2 := vr v2 (by simp)
    have a3 := vr v3 (by simp)
    simp only [unTail, List.length_cons, List.length_nil, Nat.zero_add, List.map_cons, List.map_nil, number, List.foldl_cons, List.foldl_nil, Nat.reduceAdd]
    rw [toNat8 (by omega), toNat8 (by omega), e2]
    omega

/-! ## The first pass -/

theorem dec_idx : ∀ c ∈ alphabet, decMap.getD c.toNat 0 = alphabet.idxOf c ∧ alphabet.idxOf c < 64 ∧ c ≠ 0x3d ∧ c ≠ 0x20 ∧ c ≠ 0x0d ∧ c ≠ 0x0a := by
  decide +kernel

theorem class_of : ∀ n, n < 256 → let c := UInt8.ofNat n
    c = 0x20 ∨ c = 0x0d ∨ c = 0x0a ∨ c = 0x3d ∨ (c ∈ alphabet ∧ n < 128 ∧ ∃ d, decMap[n]? = some d ∧ d < 64) ∨
      (c ∉ alphabet ∧ (n > 127 ∨ decMap[n]? = some 127)) := by
  decide +kernel

def black (t : Bytes) : Bytes := t.filter (fun c => c ≠ 0x20 ∧ c ≠ 0x0d ∧ c ≠ 0x0a)

def Body (j : Nat) (t : Bytes) : Prop := ∃ a p, black t = a ++ List.replicate p 0x3d ∧ (∀ c ∈ a, c ∈ alphabet) ∧ j + p ≤ 2 ∧ (j ≠ 0 → a = [])

theorem body_ws {j : Nat} {c : UInt8} {t : Bytes} (h : c = 0x20 ∨ c = 0x0d ∨ c = 0x0a) : Body j (c :: t) ↔ Body j t := by
  have : black (c :: t) = black t := List.filter_cons_of_neg (by rcases h with rfl | rfl | rfl <;> decide)
  unfold Body
  rw [this]

theorem black_cons {c : UInt8} {t : Bytes} (h : c ≠ 0x20 ∧ c ≠ 0x0d ∧ c ≠ 0x0a) : black (c :: t) = c :: black t := List.filter_cons_of_pos (by simpa using h)

theorem body_pad {j : Nat} {t : Bytes} : Body j (0x3d :: t) ↔ j + 1 ≤ 2 ∧ Body (j + 1) t := by
  unfold Body
  rw [black_cons (by decide)]
  constructor
  · rintro ⟨a, p, h1, h2, h3, h4⟩
    cases a with
    | nil =>
      cases p with
      | zero => simp at h1
      | succ p =>
        rw [List.nil_append, List.replicate_succ, List.cons.injEq] at h1
        exact ⟨by omega, [], p, h1.2, by simp, by omega, fun _ => rfl⟩
    | cons c a =>
      rw [List.cons_append, List.cons.injEq] at h1
      exact absurd h1.1.symm (dec_idx c (h2 c (by simp))).2.2.1
  · rintro ⟨h, a, p, h1, h2, h3, h4⟩
    have := h4 (by omega)
    subst this
    exact ⟨[], p + 1, by rw [h1, List.nil_append, List.nil_append, List.replicate_succ], by simp, by omega, fun _ => rfl⟩

theorem body_digit {j : Nat} {c : UInt8} {t : Bytes} (hc : c ∈ alphabet) : Body j (c :: t) ↔ j = 0 ∧ Body 0 t := by
  obtain ⟨-, -, hn, hw⟩ := dec_idx c hc
  unfold Body
  rw [black_cons hw]
  constructor
  · rintro ⟨a, p, h1, h2, h3, h4⟩
    cases a with
    | nil =>
      cases p with
      | zero => simp at h1
      | succ p =>
        rw [List.nil_append, List.replicate_succ, List.cons.injEq] at h1
        exact absurd h1.1 hn
    | cons c' a =>
      rw [List.cons_append, List.cons.injEq] at h1
      refine ⟨by by_contra h; simpa using h4 h, a, p, h1.2, fun c h => h2 c (List.mem_cons_of_mem _ h), by omega, by simp⟩
  · rintro ⟨rfl, a, p, h1, h2, h3, h4⟩
    refine ⟨c :: a, p, by rw [h1, List.cons_append], ?_, h3, by simp⟩
    intro d hd
    rcases List.mem_cons.1 hd with rfl | hd
    · exact hc
    · exact h2 d hd

theorem body_bad {j : Nat} {c : UInt8} {t : Bytes} (hw : c ≠ 0x20 ∧ c ≠ 0x0d ∧ c ≠ 0x0a) (hp : c ≠ 0x3d) (hc : c ∉ alphabet) : ¬Body j (c :: t) := by
  unfold Body
  rw [black_cons hw]
  rintro ⟨a, p, h1, h2, h3, h4⟩
  cases a with
  | nil =>
    cases p with
    | zero => simp at h1
    | succ p =>
      rw [List.nil_append, List.replicate_succ, List.cons.injEq] at h1
      exact hp h1.1
  | cons c' a =>
    rw [List.cons_append, List.cons.injEq] at h1
    exact hc (h1.1 ▸ h2 c' (by simp))

theorem lines_cons {c : UInt8} {t : Bytes} : Lines (c :: t) ↔
    (c = 0x0d → t.head? = some 0x0a) ∧ (c = 0x20 → ∀ d, t.head? = some d → d = 0x20 ∨ d = 0x0d ∨ d = 0x0a) ∧ Lines t := by
  unfold Lines
  constructor
  · rintro ⟨h1, h2⟩
    refine ⟨fun h => ?_, fun h d hd => ?_, fun i h => h1 (i + 1) h, fun i d h => h2 (i + 1) d h⟩
    · have := h1 0 (by simp [h])
      simpa [List.head?_eq_getElem?] using this
    · exact h2 0 d (by simp [h]) (by simpa [List.head?_eq_getElem?] using hd)
  · rintro ⟨h1, h2, h3, h4⟩
    constructor
    · intro i h
      cases i with
      | zero =>
        have := h1 (by simpa using h)
        simpa [List.head?_eq_getElem?] using this
      | succ i => exact h3 i h
    · intro i d h h'
      cases i with
      | zero => exact h2 (by simpa using h) d (by simpa [List.head?_eq_getElem?] using h')
      | succ i => exact h4 i d h h'

theorem scan_iff (t : Bytes) (x n j : Nat) (hj : j ≤ 2) (hx : x + t.length < 4294967296) : (∃ r, scan x t n j = some r) ↔
    (x ≠ 0 → ∀ c, t.head? = some c → c = 0x20 ∨ c = 0x0d ∨ c = 0x0a) ∧ Lines t ∧ Body j t := by
  induction t generalizing x n j with
  | nil =>
    have : Lines [] := ⟨by simp, by simp⟩
    simp only [scan, Option.some.injEq, exists_eq', true_iff]
    exact ⟨by simp, this, [], 0, rfl, by simp, by omega, fun _ => rfl⟩
  | cons c t ih =>
    rw [List.length_cons] at hx
    have ih0 := fun n j hj => ih 0 n j hj (by omega)
    simp only [ne_eq, not_true_eq_false, false_implies, true_and] at ih0
    rw [lines_cons]
    simp only [List.head?_cons, Option.some.injEq, forall_eq']
    have hcl := class_of c.toNat c.toNat_lt
    simp only [UInt8.ofNat_toNat] at hcl
    by_cases h1 : c = 0x20
    · subst h1
      rw [body_ws (Or.inl rfl), scan, if_pos rfl, Nat.mod_eq_of_lt (by omega), ih (x + 1) n j hj (by omega)]
      simp only [ne_eq, Nat.add_eq_zero_iff, one_ne_zero, and_false, not_false_eq_true, forall_const, true_or, implies_true, true_and]
      constructor
      · rintro ⟨h, h', h''⟩; exact ⟨⟨fun h => absurd h (by decide), h, h'⟩, h''⟩
      · rintro ⟨⟨-, h, h'⟩, h''⟩; exact ⟨h, h', h''⟩
    by_cases h2 : c = 0x0d
    · subst h2
      rw [body_ws (Or.inr (Or.inl rfl)), scan, if_neg (by decide)]
      by_cases hn : t.head? = some 0x0a
      · rw [if_pos ⟨rfl, hn⟩, ih0 n j hj]
        constructor
        · rintro ⟨h, h'⟩; exact ⟨fun _ => Or.inr (Or.inl rfl), ⟨fun _ => hn, fun h => absurd h (by decide), h⟩, h'⟩
        · rintro ⟨-, ⟨-, -, h⟩, h'⟩; exact ⟨h, h'⟩
      · rw [if_neg (fun h => hn h.2), if_neg (by decide)]
        constructor
        · rintro ⟨r, hr⟩
          exfalso
          by_cases hx0 : x ≠ 0
          · rw [if_pos hx0] at hr; exact absurd hr (by simp)
          · rw [if_neg hx0] at hr
            simp only [show (0x0d : UInt8) ≠ 0x3d from by decide, if_false, false_and] at hr
            rw [if_pos (Or.inr (by decide +kernel))] at hr
            exact absurd hr (by simp)
        · rintro ⟨-, ⟨h, -, -⟩, -⟩; exact absurd (h rfl) hn
    by_cases h3 : c = 0x0a
    · subst h3
      rw [body_ws (Or.inr (Or.inr rfl)), scan, if_neg (by decide), if_neg (by simp), if_pos rfl, ih0 n j hj]
      constructor
      · rintro ⟨h, h'⟩; exact ⟨fun _ => Or.inr (Or.inr rfl), ⟨fun h => absurd h (by decide), fun h => absurd h (by decide), h⟩, h'⟩
      · rintro ⟨-, ⟨-, -, h⟩, h'⟩; exact ⟨h, h'⟩
    rw [scan, if_neg h1, if_neg (fun h => h2 h.1), if_neg h3]
    by_cases hx0 : x ≠ 0
    · rw [if_pos hx0]
      constructor
      · rintro ⟨r, hr⟩; exact absurd hr (by simp)
      · rintro ⟨h, -⟩; exact absurd (h hx0) (by tauto)
    rw [if_neg hx0]
    have clear : ∀ B, ((¬x = 0 → c = 0x20 ∨ c = 0x0d ∨ c = 0x0a) ∧
        ((c = 0x0d → t.head? = some 0x0a) ∧ (c = 0x20 → ∀ d, t.head? = some d → d = 0x20 ∨ d = 0x0d ∨ d = 0x0a) ∧ Lines t) ∧ B) ↔ Lines t ∧ B := fun B => by
      tauto
    simp only [ne_eq]
    rw [clear]
    rcases hcl with h | h | h | h | ⟨hm, hlt, d, hd, hd64⟩ | ⟨hm, hb⟩
    · exact absurd h h1
    · exact absurd h h2
    · exact absurd h h3
    · subst h
      rw [body_pad]
      simp only [if_true, true_and]
      by_cases hj2 : j + 1 > 2
      · rw [if_pos hj2]
        constructor
        · rintro ⟨r, hr⟩; exact absurd hr (by simp)
        · rintro ⟨-, h, -⟩; omega
      · rw [if_neg hj2, if_neg (by decide +kernel), if_neg (by rintro ⟨⟨d, hd, h64⟩, -⟩; rw [show decMap[(0x3d : UInt8).toNat]? = some 64 from by decide +kernel] at hd; simp at hd; omega),
          ih0 (n + 1) (j + 1) (by omega)]
        constructor
        · rintro ⟨h, h'⟩; exact ⟨h, by omega, h'⟩
        · rintro ⟨h, -, h'⟩; exact ⟨h, h'⟩
    · have hne : c ≠ 0x3d := (dec_idx c hm).2.2.1
      rw [body_digit hm]
      simp only [hne, if_false, false_and]
      rw [if_neg (by rw [hd]; simp; omega)]
      by_cases hj0 : j = 0
      · subst hj0
        rw [if_neg (fun h => h.2 rfl), ih0 (n + 1) 0 (by omega)]
        simp
      · rw [if_pos ⟨⟨d, hd, hd64⟩, hj0⟩]
        constructor
        · rintro ⟨r, hr⟩; exact absurd hr (by simp)
        · rintro ⟨-, h, -⟩; exact absurd h hj0
    · by_cases hne : c = 0x3d
      · subst hne
        exact absurd hb (by decide +kernel)
      · simp only [hne, if_false, false_and]
        rw [if_pos hb]
        constructor
        · rintro ⟨r, hr⟩; exact absurd hr (by simp)
        · rintro ⟨-, h⟩; exact absurd h (body_bad ⟨h1, h2, h3⟩ hne hm)

/-- **C119**: the texts that are accepted, of less than `2 ^ 32` characters. -/
theorem c119_accept (t : Bytes) (ht : t.length < 4294967296) (dst : Option Nat) :
    decode dst t ≠ .ok .invalidChar ↔ Lines t ∧ ∃ a p, Written t a p := by
  have h := scan_iff t 0 0 0 (by omega) (by omega)
  simp only [ne_eq, not_true_eq_false, false_implies, true_and] at h
  have hb : Body 0 t ↔ ∃ a p, Written t a p := by
    unfold Body Written black
    simp only [Nat.zero_add, not_true_eq_false, false_implies, and_true, ne_eq]
  rw [← hb, ← h]
  rcases hs : scan 0 t 0 0 with _ | ⟨n, j⟩
  · have : decode dst t = .ok .invalidChar := by unfold decode; rw [hs]
    simp [this]
  · obtain ⟨a, -, -, -, -, -, hd⟩ := decode_spec (by omega) hs
    simp only [Option.some.injEq, exists_eq', iff_true]
    rw [hd]
    intro he
    have := Res.ok.inj he
    split at this
    · cases this
    · split at this
      · cases this
      · split at this <;> cases this

/-! ## The result -/

theorem split_unique {l l' : List Nat} {p p' : Nat} (h : l ++ List.replicate p 64 = l' ++ List.replicate p' 64) (hl : ∀ v ∈ l, v < 64)
    (hl' : ∀ v ∈ l', v < 64) : l = l' ∧ p = p' := by
  have key : ∀ (l : List Nat) (p : Nat), (∀ v ∈ l, v < 64) → (l ++ List.replicate p 64).filter (fun v => v < 64) = l := by
    intro l p h
    rw [List.filter_append, List.filter_eq_self.2 (by simpa using h), List.filter_eq_nil_iff.2 (by
      intro v hv; rw [(List.mem_replicate.1 hv).2]; decide), List.append_nil]
  have e : l = l' := by rw [← key l p hl, h, key l' p' hl']
  refine ⟨e, ?_⟩
  have := congrArg List.length h
  rw [e] at this
  simpa using this

theorem vals_written {t a : Bytes} {p : Nat} (h : Written t a p) : vals t = digits a ++ List.replicate p 64 := by
  obtain ⟨h1, h2, -⟩ := h
  have e : (t.filter fun c => !isWs c) = t.filter (fun c => c ≠ 0x20 ∧ c ≠ 0x0d ∧ c ≠ 0x0a) := by
    refine List.filter_congr fun c _ => ?_
    unfold isWs
    rw [← decide_not, decide_eq_decide]
    tauto
  unfold vals
  rw [e, h1, List.map_append, List.map_replicate]
  congr 1
  exact List.map_congr_left fun c hc => (dec_idx c (h2 c hc)).1

theorem digits_lt {a : Bytes} (h : ∀ c ∈ a, c ∈ alphabet) : ∀ v ∈ digits a, v < 64 := by
  intro v hv
  obtain ⟨c, hc, rfl⟩ := List.mem_map.1 hv
  exact (dec_idx c (h c hc)).2.1

theorem digits_len (a : Bytes) : (digits a).length = a.length := List.length_map _

/-- What an accepted text gives. -/
theorem decode_written {t a : Bytes} {p : Nat} (ht : t.length < 2 ^ 63) {dst : Option Nat} (h : Written t a p) {out : Bytes} {len : Nat}
    (hd : decode dst t = .ok (.ok out len)) : out = decoded (digits a) p ∧ len = out.length := by
  rcases hs : scan 0 t 0 0 with _ | ⟨n, j⟩
  · have : decode dst t = .ok .invalidChar := by unfold decode; rw [hs]
    rw [this] at hd
    simp at hd
  · obtain ⟨av, h5, h6, h7, h8, -, he⟩ := decode_spec ht hs
    rw [vals_written h] at h5
    obtain ⟨rfl, rfl⟩ := split_unique h5 (digits_lt h.2.1) h6
    rw [he] at hd
    have hd := Res.ok.inj hd
    by_cases hn : n = 0
    · rw [if_pos hn] at hd
      cases hd
      have h0 : digits a = [] := List.length_eq_zero_iff.1 (by omega)
      rw [h0]
      exact ⟨by simp [decoded, unGroup, unTail], rfl⟩
    · rw [if_neg hn] at hd
      cases dst with
      | none => cases hd
      | some dlen =>
        beta_reduce at hd
        by_cases hl : dlen < (6 * n + 7) / 8 - p
        · simp only [if_pos hl] at hd
          cases hd
        · simp only [if_neg hl] at hd
          cases hd
          exact ⟨rfl, rfl⟩

/-- **C119**: the result of decoding a text, whenever there is one: the text as a number in base 64, without its last bits, is the result as a number in
base 256. An incomplete group at the end of the text is dropped. -/
theorem c119_value (t : Bytes) (ht : t.length < 4294967296) (dst : Option Nat) (out : Bytes) (len : Nat) (hd : decode dst t = .ok (.ok out len)) :
    ∃ a p, Written t a p ∧ len = out.length ∧ out.length = size a.length p ∧
      number 256 (out.map UInt8.toNat) = number 64 (digits a) / 2 ^ (6 * a.length - 8 * out.length) := by
  obtain ⟨-, a, p, hw⟩ := (c119_accept t ht dst).1 (by rw [hd]; simp)
  obtain ⟨rfl, e⟩ := decode_written (by omega) hw hd
  obtain ⟨e1, e2⟩ := decoded_exact (digits a) p hw.2.2 (digits_lt hw.2.1)
  rw [digits_len] at e1 e2
  exact ⟨a, p, hw, e, e1, e2⟩

theorem number_sixes : ∀ s : Bytes, number 64 (sixes s) = number 256 (bytes s) * 4 ^ pads s
  | [] => rfl
  | [a] => by
    have ha := a.toNat_lt
    simp only [sixes, pads, bytes, number, List.map_cons, List.map_nil, List.foldl_cons, List.foldl_nil, List.length_cons, List.length_nil, Nat.zero_add,
      Nat.reduceMod, Nat.reduceSub, Nat.reducePow]
    omega
  | [a, b] => by
    have ha := a.toNat_lt
    have hb := b.toNat_lt
    simp only [sixes, pads, bytes, number, List.map_cons, List.map_nil, List.foldl_cons, List.foldl_nil, List.length_cons, List.length_nil, Nat.zero_add,
      Nat.reduceAdd, Nat.reduceMod, Nat.reduceSub, Nat.reducePow]
    omega
  | a :: b :: c :: r => by
    have ih := number_sixes r
    have ha := a.toNat_lt
    have hb := b.toNat_lt
    have hc := c.toNat_lt
    have hp : pads (a :: b :: c :: r) = pads r := by
      unfold pads
      simp only [List.length_cons]
      omega
    have hl := sixes_length r
    have e1 : sixes (a :: b :: c :: r) = [(a.toNat * 65536 + b.toNat * 256 + c.toNat) / 262144, (a.toNat * 65536 + b.toNat * 256 + c.toNat) / 4096 % 64,
      (a.toNat * 65536 + b.toNat * 256 + c.toNat) / 64 % 64, (a.toNat * 65536 + b.toNat * 256 + c.toNat) % 64] ++ sixes r := rfl
    have e2 : bytes (a :: b :: c :: r) = [a.toNat, b.toNat, c.toNat] ++ bytes r := rfl
    rw [e1, e2, number_append, number_append, ih, hp, bytes_len, Nat.add_mul]
    congr 1
    have e3 : 64 ^ (sixes r).length = 256 ^ r.length * 4 ^ pads r := by
      rw [show 64 = 2 ^ 6 from rfl, show 256 = 2 ^ 8 from rfl, show 4 = 2 ^ 2 from rfl, ← Nat.pow_mul, ← Nat.pow_mul, ← Nat.pow_mul, ← Nat.pow_add]
      congr 1
      unfold pads at hl ⊢
      omega
    rw [e3, ← Nat.mul_assoc]
    congr 2
    simp only [number, List.foldl_cons, List.foldl_nil]
    omega

theorem digit_idx : ∀ v, v < 64 → alphabet.idxOf (digit v) = v := by decide +kernel
theorem idx_digit : ∀ c ∈ alphabet, digit (alphabet.idxOf c) = c := by decide +kernel

theorem digits_map {l : List Nat} (h : ∀ v ∈ l, v < 64) : digits (l.map digit) = l := by
  unfold digits
  rw [List.map_map]
  conv_rhs => rw [← List.map_id l]
  exact List.map_congr_left fun v hv => digit_idx v (h v hv)

theorem map_digits {a : Bytes} (h : ∀ c ∈ a, c ∈ alphabet) : (digits a).map digit = a := by
  unfold digits
  rw [List.map_map]
  conv_rhs => rw [← List.map_id a]
  exact List.map_congr_left fun c hc => idx_digit c (h c hc)

/-- **C119**: a text is the encoding of what it decodes to exactly if its length without white space is a multiple of four and the bits that are not
used are zero. -/
theorem c119_canonical (t : Bytes) (ht : t.length < 4294967296) (dst : Option Nat) (out : Bytes) (len : Nat) (hd : decode dst t = .ok (.ok out len))
    (a : Bytes) (p : Nat) (hw : Written t a p) :
    base64 out = a ++ List.replicate p 0x3d ↔ 4 ∣ a.length + p ∧ 2 ^ (6 * a.length - 8 * out.length) ∣ number 64 (digits a) := by
  obtain ⟨e, -⟩ := decode_written (by omega) hw hd
  obtain ⟨e1, e2⟩ := decoded_exact (digits a) p hw.2.2 (digits_lt hw.2.1)
  rw [← e, digits_len] at e1 e2
  obtain ⟨b1, b2, -⟩ := base64_sixes out
  have hn := number_sixes out
  have hl := sixes_length out
  have hal := hw.2.1
  have hp := hw.2.2
  rw [b1]
  constructor
  · intro h
    have hu : sixes out = digits a ∧ pads out = p := by
      have h' := congrArg (List.map fun c : UInt8 => decMap.getD c.toNat 0) h
      rw [List.map_append, List.map_append, List.map_replicate, List.map_replicate, List.map_map] at h'
      rw [show (List.map ((fun c : UInt8 => decMap.getD c.toNat 0) ∘ digit) (sixes out)) = sixes out from by
          conv_rhs => rw [← List.map_id (sixes out)]
          exact List.map_congr_left fun v hv => dec_digit v (b2 v hv),
        show (List.map (fun c : UInt8 => decMap.getD c.toNat 0) a) = digits a from List.map_congr_left fun c hc => (dec_idx c (hal c hc)).1] at h'
      exact split_unique h' b2 (digits_lt hal)
    obtain ⟨h1, h2⟩ := hu
    rw [h1, h2] at hn
    rw [h1, h2, digits_len] at hl
    refine ⟨⟨_, hl⟩, ?_⟩
    rw [hn, show 4 = 2 ^ 2 from rfl, ← Nat.pow_mul]
    refine Dvd.dvd.mul_left (Nat.pow_dvd_pow 2 ?_) _
    rw [pads] at h2
    omega
  · rintro ⟨⟨q, hq⟩, hz⟩
    have hp2 : pads out = p := by
      unfold pads
      rw [e1]
      unfold size
      split <;> (try split) <;> omega
    have hlen : (sixes out).length = (digits a).length := by
      rw [digits_len]
      rw [hp2] at hl
      have : out.length + p = 3 * q := by
        rw [e1]
        unfold size
        split <;> (try split) <;> omega
      omega
    have hx : 6 * a.length - 8 * out.length = 2 * p := by
      rw [e1]
      unfold size
      split <;> (try split) <;> omega
    have he : sixes out = digits a := by
      refine number_inj b2 (digits_lt hal) hlen ?_
      rw [hn, hp2, e2, hx, show 4 = 2 ^ 2 from rfl, ← Nat.pow_mul]
      rw [hx] at hz
      exact Nat.div_mul_cancel hz
    rw [he, hp2, map_digits hal]

theorem scan_spaces (m x : Nat) (hx : x < 4294967296) (r : Bytes) (n j : Nat) :
    scan x (List.replicate m 0x20 ++ r) n j = scan ((x + m) % 4294967296) r n j := by
  induction m generalizing x with
  | zero => rw [List.replicate_zero, List.nil_append, Nat.add_zero, Nat.mod_eq_of_lt hx]
  | succ m ih =>
    rw [List.replicate_succ, List.cons_append, scan, if_pos rfl, ih _ (Nat.mod_lt _ (by decide))]
    congr 1
    omega

theorem wraps (m : Nat) (hm : 0 < m) (h : m % 4294967296 = 0) : ¬Lines (0x51 :: (List.replicate m 0x20 ++ [0x51, 0x51, 0x51])) ∧
    scan 0 (0x51 :: (List.replicate m 0x20 ++ [0x51, 0x51, 0x51])) 0 0 = some (4, 0) := by
  constructor
  · intro hl
    have := hl.2 m 0x51 (by
      obtain ⟨k, rfl⟩ : ∃ k, m = k + 1 := ⟨m - 1, by omega⟩
      rw [List.getElem?_cons_succ, List.getElem?_append_left (by rw [List.length_replicate]; omega), List.getElem?_replicate, if_pos (by omega)]) (by
      rw [List.getElem?_cons_succ, List.getElem?_append_right (by rw [List.length_replicate]), List.length_replicate, Nat.sub_self]
      rfl)
    revert this
    decide
  · have h0 : ∀ r, scan 0 (0x51 :: r) 0 0 = scan 0 r 1 0 := by
      intro r
      rw [scan, if_neg (by decide), if_neg (fun h => absurd h.1 (by decide)), if_neg (by decide), if_neg (by decide)]
      simp only [show (0x51 : UInt8) ≠ 0x3d from by decide, if_false, false_and]
      rw [if_neg (by decide +kernel), if_neg (by simp)]
    rw [h0, scan_spaces _ _ (by decide), Nat.zero_add, h]
    decide +kernel

/-- **C119**, what the code does not do: spaces inside a line are refused unless their number is a multiple of `2 ^ 32`. -/
theorem c119_spaces_false : ∃ t : Bytes, t.length = 4294967300 ∧ ¬Lines t ∧ decode none t = .ok (.tooSmall 3) := by
  obtain ⟨m, hm⟩ : ∃ m, m = 4294967296 := ⟨_, rfl⟩
  obtain ⟨h1, h2⟩ := wraps m (by omega) (by omega)
  have hl : (0x51 :: (List.replicate m 0x20 ++ [0x51, 0x51, 0x51]) : Bytes).length = 4294967300 := by
    rw [List.length_cons, List.length_append, List.length_replicate, hm]
    rfl
  refine ⟨_, hl, h1, ?_⟩
  obtain ⟨a, -, -, -, -, -, hd⟩ := decode_spec (by rw [hl]; decide) h2
  rw [hd]
  rfl

/-! ## Cases -/

/-- `QQ==` and `QR==` are the same byte; the second one is not the encoding of it. -/
example : decode (some 9) [0x51, 0x51, 0x3d, 0x3d] = .ok (.ok [0x41] 1) ∧ decode (some 9) [0x51, 0x52, 0x3d, 0x3d] = .ok (.ok [0x41] 1) ∧
    base64 [0x41] = [0x51, 0x51, 0x3d, 0x3d] := by decide +kernel

/-- `QUJDREU` without the sign `=`: two bytes are lost, and the decoder reports success. -/
example : decode (some 9) [0x51, 0x55, 0x4a, 0x44, 0x52, 0x45, 0x55] = .ok (.ok [0x41, 0x42, 0x43] 3) ∧
    decode (some 9) [0x51, 0x55, 0x4a, 0x44, 0x52, 0x45, 0x55, 0x3d] = .ok (.ok [0x41, 0x42, 0x43, 0x44, 0x45] 5) := by decide +kernel

/-- Two lines, the first one with a space and a carriage return at the end. -/
example : Written [0x51, 0x52, 0x20, 0x0d, 0x0a, 0x3d, 0x3d] [0x51, 0x52] 2 := ⟨by decide, by decide, by decide⟩

example : decode (some 9) [0x51, 0x52, 0x20, 0x0d, 0x0a, 0x3d, 0x3d] ≠ .ok .invalidChar := by decide +kernel

/-- The value of `QR==`: the number 16 * 64 + 17 without its last four bits; these are not zero. -/
example : number 256 ([0x41].map UInt8.toNat) = number 64 (digits [0x51, 0x52]) / 2 ^ (6 * 2 - 8 * 1) ∧ ¬2 ^ (6 * 2 - 8 * 1) ∣ number 64 (digits [0x51, 0x52]) := by
  decide +kernel

/-- A space inside a line. -/
example : ¬Lines [0x51, 0x20, 0x52] := fun h => absurd (h.2 1 0x52 rfl rfl) (by decide)

end Verif.Io.Exact
