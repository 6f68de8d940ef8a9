import Verif.Bignum.Mont

/-!
# Modular exponentiation
-/

namespace Verif.Bignum

open Verif
open Verif.Tdp (bitlen mpiSize)

/-! ## Bits of the exponent -/

theorem bits_fold (x : Nat) : ∀ (k e : Nat), ((List.range k).reverse.map fun b => (x >>> b) &&& 1).foldl (fun e b => 2 * e + b) e = e * 2 ^ k + x % 2 ^ k := by
  intro k
  induction k with
  | zero => intro e; simp [Nat.mod_one]
  | succ k ih =>
    intro e
    rw [List.range_succ, List.reverse_append, List.reverse_singleton, List.singleton_append, List.map_cons, List.foldl_cons, ih,
      Nat.and_one_is_mod, Nat.shiftRight_eq_div_pow, pow_succ, Nat.mod_mul]
    ring

theorem bitsOf_fold {p : List Nat} (hp : LOk p) : ∀ e, (bitsOf p).foldl (fun e b => 2 * e + b) e = e * W64 ^ p.length + val p := by
  unfold bitsOf
  induction p with
  | nil => intro e; simp [val]
  | cons x r ih =>
    intro e
    have hx : x < W64 := hp x (by simp)
    have hr : LOk r := fun y hy => hp y (by simp [hy])
    rw [List.reverse_cons, List.flatMap_append, List.foldl_append, ih hr, List.flatMap_singleton, bits_fold,
      Nat.mod_eq_of_lt (by simpa using hx), List.length_cons, show (2 : Nat) ^ 64 = W64 by norm_num, pow_succ W64]
    simp only [val]
    generalize W64 ^ r.length = w
    generalize val r = v
    ring

theorem bitsOf_le (p : List Nat) : ∀ b ∈ bitsOf p, b ≤ 1 := by
  intro b hb
  unfold bitsOf at hb
  simp only [List.mem_flatMap, List.mem_map] at hb
  obtain ⟨x, -, k, -, rfl⟩ := hb
  rw [Nat.and_one_is_mod]; omega

/-! ## Squarings and the table -/

variable {N : Mpi} {mm tl a : Nat}

theorem squares_rep (hM : MontOk N mm tl) : ∀ (k : Nat) {X : Mpi} {v : Nat}, Rep N X v → ∃ R, squares N mm tl k X = .ok R ∧ Rep N R (v ^ 2 ^ k) := by
  intro k
  induction k with
  | zero => intro X v h; exact ⟨X, rfl, by simpa using h⟩
  | succ k ih =>
    intro X v h
    obtain ⟨Y, y1, y2, -⟩ := montmul_rep hM h h
    obtain ⟨R, r1, r2⟩ := ih y2
    refine ⟨R, by unfold squares; simp only [y1, Out.bind_ok, r1], ?_⟩
    have : (v * v) ^ 2 ^ k = v ^ 2 ^ (k + 1) := by rw [← pow_two, ← pow_mul, pow_succ, Nat.mul_comm (2 ^ k)]
    rwa [this] at r2

/-- Copying a number in Montgomery form to a fresh entry. -/
theorem fresh_copy (hl : N.p.length + 1 ≤ maxLimbs) {Y : Mpi} {v : Nat} (hY : Rep N Y v) :
    ∃ G R, grow Mpi.null (N.p.length + 1) = .ok G ∧ copy G Y = .ok R ∧ Rep N R v := by
  obtain ⟨G, g1, g2, -, -, g3, -⟩ := (grow_spec Mpi.null Mpi.null_WF (N.p.length + 1)).1 hl
  obtain ⟨R, r1, r2, r3, -, -⟩ := copy_spec g2 hY.wf
  have hlen := (copy_len hY.ne r1).1
  refine ⟨G, R, g1, r1, r2, copy_neg r1 hY.neg, ?_, by rw [r3]; exact hY.lt, by rw [r3]; exact hY.rep⟩
  rw [show Mpi.null.p.length = 0 from rfl] at g3
  omega

/-- The table while it is filled: entries below `i` from `lo` on are powers, entries from `i` on are untouched. -/
structure TabInv (N : Mpi) (a lo i : Nat) (W : List Mpi) : Prop where
  len : W.length = 128
  one : ∃ Y, W[1]? = some Y ∧ Rep N Y a
  done : ∀ k, lo ≤ k → k < i → ∃ Y, W[k]? = some Y ∧ Rep N Y (a ^ k)
  rest : ∀ k, i ≤ k → k < 128 → W[k]? = some Mpi.null

theorem TabInv.step {lo i : Nat} {W : List Mpi} {Y : Mpi} (h : TabInv N a lo i W) (hlo : 2 ≤ lo) (hi : lo ≤ i) (hi2 : i < 128) (hY : Rep N Y (a ^ i)) :
    TabInv N a lo (i + 1) (W.set i Y) := by
  refine ⟨by rw [List.length_set]; exact h.len, ?_, ?_, ?_⟩
  · obtain ⟨Y1, h1, h2⟩ := h.one
    exact ⟨Y1, by rw [List.getElem?_set_ne (by omega)]; exact h1, h2⟩
  · intro k hk1 hk2
    by_cases hki : k = i
    · subst hki
      exact ⟨Y, by rw [List.getElem?_set_self (by rw [h.len]; exact hi2)], hY⟩
    · obtain ⟨Z, z1, z2⟩ := h.done k hk1 (by omega)
      exact ⟨Z, by rw [List.getElem?_set_ne (by omega)]; exact z1, z2⟩
  · intro k hk1 hk2
    rw [List.getElem?_set_ne (by omega)]
    exact h.rest k (by omega) hk2

theorem tabLoop_spec (hM : MontOk N mm tl) (hl : N.p.length + 1 ≤ maxLimbs) {lo : Nat} (hlo : 2 ≤ lo) : ∀ (k i : Nat) {W : List Mpi}, lo < i → i + k ≤ 128 →
    TabInv N a lo i W → ∃ W', tabLoop N mm tl k i W = .ok W' ∧ TabInv N a lo (i + k) W' := by
  intro k
  induction k with
  | zero => intro i W _ _ h; exact ⟨W, rfl, h⟩
  | succ k ih =>
    intro i W hi hik h
    obtain ⟨P, p1, p2⟩ := h.done (i - 1) (by omega) (by omega)
    obtain ⟨W1, w1, w2⟩ := h.one
    obtain ⟨G, R, g1, g2, g3⟩ := fresh_copy hl p2
    obtain ⟨S, s1, s2, -⟩ := montmul_rep hM g3 w2
    have hS : Rep N S (a ^ i) := by
      rw [← pow_succ, show i - 1 + 1 = i by omega] at s2
      exact s2
    obtain ⟨W', r1, r2⟩ := ih (i + 1) (W := W.set i S) (by omega) (by omega) (h.step hlo (by omega) (by omega) hS)
    refine ⟨W', ?_, by rw [show i + (k + 1) = i + 1 + k by omega]; exact r2⟩
    unfold tabLoop
    rw [h.rest i (le_refl _) (by omega)]
    simp only [orUb_some, Out.bind_ok, g1, p1, g2, w1, s1, r1]

/-- The finished table: the base and the powers in the upper half. -/
def TabOk (N : Mpi) (a ws : Nat) (W : List Mpi) : Prop := ∀ k < 2 ^ ws, (k = 1 ∨ 2 ^ (ws - 1) ≤ k) → ∃ Y, W[k]? = some Y ∧ Rep N Y (a ^ k)

theorem table_spec (hM : MontOk N mm tl) (hl : N.p.length + 1 ≤ maxLimbs) {W1 : Mpi} (h1 : Rep N W1 a) {ws : Nat} (hws : 1 ≤ ws) (hws6 : ws ≤ 6) :
    ∃ W, table N mm tl ws ((List.replicate 128 Mpi.null).set 1 W1) = .ok W ∧ TabOk N a ws W := by
  have hone : ((List.replicate 128 Mpi.null).set 1 W1)[1]? = some W1 := by
    rw [List.getElem?_set_self (by rw [List.length_replicate]; decide)]
  by_cases hw1 : ws = 1
  · subst hw1
    refine ⟨_, by unfold table; rw [if_neg (by decide)], ?_⟩
    intro k hk hk'
    have : k = 1 := by
      rcases hk' with h | h
      · exact h
      · simp at h hk; omega
    subst this
    exact ⟨W1, hone, by simpa using h1⟩
  · have h0 : TabInv N a (2 ^ (ws - 1)) (2 ^ (ws - 1)) ((List.replicate 128 Mpi.null).set 1 W1) := by
      have h2 : 2 ≤ 2 ^ (ws - 1) := by
        calc 2 = 2 ^ 1 := rfl
          _ ≤ 2 ^ (ws - 1) := Nat.pow_le_pow_right (by decide) (by omega)
      refine ⟨by rw [List.length_set, List.length_replicate], ⟨W1, hone, h1⟩, fun k hk1 hk2 => by omega, fun k hk1 hk2 => ?_⟩
      rw [List.getElem?_set_ne (by omega), List.getElem?_replicate, if_pos hk2]
    have hp : 2 ^ ws = 2 * 2 ^ (ws - 1) := by rw [← Nat.pow_succ']; congr 1; omega
    have h64 : 2 ^ ws ≤ 64 := by
      calc 2 ^ ws ≤ 2 ^ 6 := Nat.pow_le_pow_right (by decide) hws6
        _ = 64 := by decide
    have hlo : 2 ≤ 2 ^ (ws - 1) := by
      calc 2 = 2 ^ 1 := rfl
        _ ≤ 2 ^ (ws - 1) := Nat.pow_le_pow_right (by decide) (by omega)
    obtain ⟨G, R, g1, g2, g3⟩ := fresh_copy hl h1
    obtain ⟨S, s1, s2⟩ := squares_rep hM (ws - 1) g3
    obtain ⟨W, w1, w2⟩ := tabLoop_spec hM hl hlo (2 ^ ws - (2 ^ (ws - 1) + 1)) (2 ^ (ws - 1) + 1) (by omega) (by omega) (h0.step hlo (le_refl _) (by omega) s2)
    refine ⟨W, ?_, ?_⟩
    · unfold table
      rw [if_pos (by omega)]
      simp only [Nat.one_shiftLeft]
      rw [h0.rest _ (le_refl _) (by omega)]
      simp only [orUb_some, Out.bind_ok, g1, hone, g2, s1, w1]
    · intro k hk hk'
      rcases hk' with h | h
      · subst h
        obtain ⟨Y, y1, y2⟩ := w2.one
        exact ⟨Y, y1, by simpa using y2⟩
      · exact w2.done k h (by omega)

/-! ## The main loop -/

/-- The loop after the bits with the value `e`: `X` holds the power for all of them but the pending window. -/
structure ExpInv (N : Mpi) (a ws e : Nat) (s : ExpSt) : Prop where
  split : ∃ h p, e = h * 2 ^ s.nbits + p ∧ p < 2 ^ s.nbits ∧ s.wbits = p * 2 ^ (ws - s.nbits) ∧ Rep N s.X (a ^ h) ∧ (s.state = 0 → h = 0) ∧
    (s.state = 2 → 2 ^ s.nbits ≤ 2 * p)
  bits : s.nbits < ws
  st : s.state ≤ 2
  pend : s.state ≠ 2 → s.nbits = 0
  pend2 : s.state = 2 → 1 ≤ s.nbits

theorem expBit_spec (hM : MontOk N mm tl) {ws : Nat} {W : List Mpi} (hW : TabOk N a ws W) {e : Nat} {s : ExpSt} (h : ExpInv N a ws e s) {b : Nat}
    (hb : b ≤ 1) : ∃ s', expBit N mm tl ws W s b = .ok s' ∧ ExpInv N a ws (2 * e + b) s' := by
  obtain ⟨⟨h0, p, i1, i2, i3, i4, i5, i6⟩, hbits, hst, hpend, hpend2⟩ := h
  unfold expBit
  by_cases c1 : b = 0 ∧ s.state = 0
  · rw [if_pos c1]
    have hn := hpend (by omega)
    have hh := i5 c1.2
    rw [hn, pow_zero] at i1 i2
    refine ⟨s, rfl, ⟨h0, p, ?_, by rw [hn]; exact i2, i3, i4, i5, i6⟩, hbits, hst, hpend, hpend2⟩
    rw [hn, pow_zero]; omega
  · rw [if_neg c1]
    by_cases c2 : b = 0 ∧ s.state = 1
    · rw [if_pos c2]
      have hn := hpend (by omega)
      rw [hn, pow_zero] at i1 i2
      obtain ⟨R, r1, r2, -⟩ := montmul_rep hM i4 i4
      simp only [r1, Out.bind_ok, Out.pure_eq]
      refine ⟨_, rfl, ⟨h0 + h0, p, ?_, ?_, i3, ?_, fun h => ?_, i6⟩, hbits, hst, hpend, hpend2⟩
      · simp only [hn, pow_zero]; omega
      · simp only [hn, pow_zero]; exact i2
      · rw [pow_add]; exact r2
      · simp only at h; omega
    · rw [if_neg c2]
      simp only
      have hw : s.wbits ||| (b <<< (ws - (s.nbits + 1))) = (2 * p + b) * 2 ^ (ws - (s.nbits + 1)) := by
        have hlt : b <<< (ws - (s.nbits + 1)) < 2 ^ (ws - s.nbits) := by
          rw [Nat.shiftLeft_eq, show ws - s.nbits = (ws - (s.nbits + 1)) + 1 by omega, pow_succ, Nat.mul_comm]
          exact Nat.mul_lt_mul_of_pos_left (by omega) (Nat.pow_pos (by decide))
        rw [i3, ← Nat.shiftLeft_eq p, ← Nat.shiftLeft_add_eq_or_of_lt hlt, Nat.shiftLeft_eq, Nat.shiftLeft_eq,
          show ws - s.nbits = (ws - (s.nbits + 1)) + 1 by omega, pow_succ]
        ring
      rw [hw]
      have hp2 : 2 * p + b < 2 ^ (s.nbits + 1) := by rw [pow_succ]; omega
      have htop : 2 ^ (s.nbits + 1) ≤ 2 * (2 * p + b) := by
        by_cases hs : s.state = 2
        · have := i6 hs
          rw [pow_succ]; omega
        · have hn := hpend hs
          rw [hn]
          have : b = 1 := by omega
          omega
      by_cases c3 : s.nbits + 1 = ws
      · rw [if_pos c3]
        obtain ⟨R, r1, r2⟩ := squares_rep hM ws i4
        obtain ⟨Y, y1, y2⟩ := hW (2 * p + b) (by rw [← c3]; exact hp2) (Or.inr (by
          rw [← c3, Nat.add_sub_cancel]
          rw [pow_succ] at htop
          omega))
        obtain ⟨S, s1, s2, -⟩ := montmul_rep hM r2 y2
        rw [c3, Nat.sub_self, pow_zero, Nat.mul_one]
        simp only [r1, Out.bind_ok, y1, orUb_some, s1, Out.pure_eq]
        refine ⟨_, rfl, ⟨2 * e + b, 0, by simp, by simp, by simp, ?_, by simp, by simp⟩, by simp only; omega, by simp, fun _ => rfl, by simp⟩
        have : (a ^ h0) ^ 2 ^ ws * a ^ (2 * p + b) = a ^ (2 * e + b) := by
          rw [← pow_mul, ← pow_add]
          congr 1
          rw [i1, ← c3, pow_succ]; ring
        rwa [this] at s2
      · rw [if_neg c3]
        refine ⟨_, rfl, ⟨h0, 2 * p + b, ?_, hp2, rfl, i4, by simp, fun _ => htop⟩, by simp only; omega, by simp, by simp, by simp⟩
        simp only
        rw [i1, pow_succ]; ring

theorem expBits_spec (hM : MontOk N mm tl) {ws : Nat} {W : List Mpi} (hW : TabOk N a ws W) : ∀ (l : List Nat) {e : Nat} {s : ExpSt}, (∀ b ∈ l, b ≤ 1) →
    ExpInv N a ws e s → ∃ s', expBits N mm tl ws W l s = .ok s' ∧ ExpInv N a ws (l.foldl (fun e b => 2 * e + b) e) s' := by
  intro l
  induction l with
  | nil => intro e s _ h; exact ⟨s, rfl, h⟩
  | cons b r ih =>
    intro e s hl h
    obtain ⟨s1, h1, h2⟩ := expBit_spec hM hW h (hl b (by simp))
    obtain ⟨s2, h3, h4⟩ := ih (fun x hx => hl x (by simp [hx])) h2
    exact ⟨s2, by unfold expBits; simp only [h1, Out.bind_ok, h3], h4⟩

theorem expRest_spec (hM : MontOk N mm tl) {ws : Nat} (hws6 : ws ≤ 6) {W : List Mpi} (hW : TabOk N a ws W) (hws : 1 ≤ ws) {p : Nat} (hp : p < 2 ^ ws) :
    ∀ (k : Nat) {X : Mpi} {h : Nat}, k ≤ ws → Rep N X (a ^ h) →
    ∃ R, expRest N mm tl ws W k X (p * 2 ^ (ws - k)) = .ok R ∧ Rep N R (a ^ (h * 2 ^ k + p % 2 ^ k)) := by
  intro k
  induction k with
  | zero => intro X h _ hX; exact ⟨X, rfl, by simpa [Nat.mod_one] using hX⟩
  | succ k ih =>
    intro X h hk hX
    obtain ⟨Y, y1, y2, -⟩ := montmul_rep hM hX hX
    rw [← pow_add] at y2
    have h64 : 2 ^ ws ≤ 64 := by
      calc 2 ^ ws ≤ 2 ^ 6 := Nat.pow_le_pow_right (by decide) hws6
        _ = 64 := by decide
    have hwk : 2 ^ (ws - k) ≤ 64 := le_trans (Nat.pow_le_pow_right (by decide) (by omega)) h64
    have hshift : (p * 2 ^ (ws - (k + 1))) <<< 1 % W64 = p * 2 ^ (ws - k) := by
      rw [Nat.shiftLeft_eq, pow_one, Nat.mul_assoc, ← pow_succ, show ws - (k + 1) + 1 = ws - k by omega]
      apply Nat.mod_eq_of_lt
      calc p * 2 ^ (ws - k) ≤ 64 * 64 := Nat.mul_le_mul (by omega) hwk
        _ < W64 := by decide
    have htest : (p * 2 ^ (ws - k)) &&& (1 <<< ws) ≠ 0 ↔ p / 2 ^ k % 2 = 1 := by
      have h1 := and_one_shl (p * 2 ^ (ws - k)) ws
      rw [Nat.testBit_eq_decide_div_mod_eq] at h1
      have h2 : p * 2 ^ (ws - k) / 2 ^ ws = p / 2 ^ k := by
        conv_lhs => rw [show ws = (ws - k) + k by omega, Nat.add_sub_cancel, pow_add, Nat.mul_comm p, Nat.mul_div_mul_left _ _ (Nat.pow_pos (by decide))]
      rw [h2] at h1
      by_cases hz : p * 2 ^ (ws - k) &&& 1 <<< ws = 0
      · rw [hz] at h1 ⊢
        simp at h1
        simp; omega
      · rw [bne_iff_ne.2 hz] at h1
        exact ⟨fun _ => of_decide_eq_true h1.symm, fun _ => hz⟩
    have hexp : ∀ c, c = p / 2 ^ k % 2 → (h + h + c) * 2 ^ k + p % 2 ^ k = h * 2 ^ (k + 1) + p % 2 ^ (k + 1) := by
      intro c hc
      rw [hc, pow_succ, Nat.mod_mul]; ring
    unfold expRest
    simp only [y1, Out.bind_ok, hshift]
    by_cases hbit : p / 2 ^ k % 2 = 1
    · rw [if_pos (htest.2 hbit)]
      obtain ⟨W1, w1, w2⟩ := hW 1 (by
        calc 1 < 2 ^ 1 := by decide
          _ ≤ 2 ^ ws := Nat.pow_le_pow_right (by decide) hws) (Or.inl rfl)
      obtain ⟨Z, z1, z2, -⟩ := montmul_rep hM y2 w2
      rw [← pow_add] at z2
      obtain ⟨R, r1, r2⟩ := ih (by omega) z2
      simp only [w1, orUb_some, Out.bind_ok, z1]
      exact ⟨R, r1, by rw [← hexp 1 hbit.symm]; exact r2⟩
    · rw [if_neg (fun hc => hbit (htest.1 hc))]
      obtain ⟨R, r1, r2⟩ := ih (by omega) y2
      exact ⟨R, r1, by rw [← hexp 0 (by omega)]; exact r2⟩

/-! ## The whole function -/

theorem winSize_bounds (i : Nat) : 1 ≤ winSize i ∧ winSize i ≤ 6 := by
  unfold winSize
  simp only
  constructor <;> split_ifs <;> omega

/-- What a cache may contain: nothing, or the value for this modulus. -/
def CacheOk (N : Mpi) (rr : Option Mpi) : Prop :=
  ∀ m, rr = some m → m.p ≠ [] → m.WF ∧ m.neg = false ∧ m.mag = W64 ^ N.p.length * W64 ^ N.p.length % N.mag

theorem toInt_of_neg_false {X : Mpi} (h : X.neg = false) : X.toInt = X.mag := by
  unfold Mpi.toInt; rw [h]; rfl

theorem neg_of_pos {X : Mpi} (h : 0 < X.toInt) : X.neg = false := by
  unfold Mpi.toInt at h
  cases hn : X.neg
  · rfl
  · rw [hn, if_pos rfl] at h; omega

theorem getRR_spec (hN : N.WF) (hN0 : 0 < N.toInt) (hl : N.p.length ≤ 4998) {rr : Option Mpi} (hc : CacheOk N rr) :
    ∃ RR rr', getRR N rr = .ok (RR, rr') ∧ RR.WF ∧ RR.neg = false ∧ RR.p ≠ [] ∧ RR.mag = W64 ^ N.p.length * W64 ^ N.p.length % N.mag ∧
      CacheOk N rr' ∧ rr'.isSome = rr.isSome := by
  have hNm : N.toInt = N.mag := toInt_of_neg_false (neg_of_pos hN0)
  unfold getRR
  by_cases he : (rr.getD Mpi.null).p = []
  · rw [if_pos he]
    obtain ⟨O, o1, o2, o3, o4, o5, o6⟩ := lset_spec Mpi.null_WF (z := 1) (by decide)
    have hb : bitlen O.mag = 1 := by rw [o6]; decide
    obtain ⟨S, s1, s2, s3, s4, s5⟩ := (shiftL_spec o2 (N.p.length * 2 * 64) (by unfold maxLimbs; omega)).1 (by rw [hb]; unfold maxLimbs; omega)
    rw [hb] at s5
    have hlen1 : S.p.length ≤ 2 * N.p.length + 1 := by
      rw [s5, o4]
      have := (bitsToLimbs_le (1 + N.p.length * 2 * 64) (2 * N.p.length + 1)).2 (by omega)
      have h0 : Mpi.null.p.length = 0 := rfl
      omega
    have hSne : S.p ≠ [] := by
      apply nonnil_of_mag
      rw [s3, o6]; simp
    have hSneg : S.neg = false := by rw [s4, o5]; decide
    obtain ⟨R, r1, r2, r3, r4, r5⟩ := modMpi_spec (A := .self) s2 trivial hN hN0 (by show S.p.length + 2 ≤ maxLimbs; unfold maxLimbs; omega)
    have hRn : R.neg = false := r5 hSneg
    have hRne : R.p ≠ [] := by
      have h4 := r4 hSne
      intro h0
      rw [h0, List.length_nil] at h4
      omega
    have hRm : R.mag = W64 ^ N.p.length * W64 ^ N.p.length % N.mag := by
      have e1 : S.mag = W64 ^ N.p.length * W64 ^ N.p.length := by
        rw [s3, o6, W64_pow, ← pow_add]
        show 1 * 2 ^ _ = _
        rw [Nat.one_mul]
        congr 1; ring
      rw [toInt_of_neg_false hRn, show Arg.get S .self = S from rfl, toInt_of_neg_false hSneg, hNm, e1] at r3
      exact_mod_cast r3
    refine ⟨R, rr.map fun _ => R, by simp only [o1, Out.bind_ok, s1, r1, Out.pure_eq], r2, hRn, hRne, hRm, ?_, by cases rr <;> rfl⟩
    intro m hm _
    cases rr with
    | none => simp at hm
    | some x =>
      simp only [Option.map_some, Option.some.injEq] at hm
      subst hm
      exact ⟨r2, hRn, hRm⟩
  · rw [if_neg he]
    cases rr with
    | none => exact absurd rfl he
    | some x =>
      obtain ⟨h1, h2, h3⟩ := hc x rfl he
      exact ⟨x, some x, rfl, h1, h2, he, h3, hc, rfl⟩

theorem reduceA_spec (hN : N.WF) (hN0 : 0 < N.toInt) {W1 P : Mpi} (hW : W1.WF) (hP : P.WF) (hPn : P.neg = false) (hPne : P.p ≠ [])
    (hl : P.p.length + 2 ≤ maxLimbs) :
    ∃ R, reduceA W1 P N = .ok R ∧ R.WF ∧ R.neg = false ∧ R.mag = P.mag % N.mag ∧ W1.p.length ≤ R.p.length := by
  have hNm : N.toInt = N.mag := toInt_of_neg_false (neg_of_pos hN0)
  have hPm : P.toInt = P.mag := toInt_of_neg_false hPn
  unfold reduceA
  rw [cmpMpi_spec hP hN]
  by_cases hge : N.toInt ≤ P.toInt
  · rw [if_pos (by unfold sgn; split_ifs <;> omega)]
    obtain ⟨R, r1, r2, r3, r4, r5⟩ := modMpi_spec (A := .ext P) hW hP hN hN0 hl
    refine ⟨R, r1, r2, r5 hPn, ?_, le_trans (le_max_right _ _) (r4 hPne)⟩
    rw [toInt_of_neg_false (r5 hPn), show Arg.get W1 (.ext P) = P from rfl, hPm, hNm] at r3
    exact_mod_cast r3
  · rw [if_neg (by unfold sgn; split_ifs <;> omega)]
    obtain ⟨R, r1, r2, r3, -, -⟩ := copy_spec hW hP
    refine ⟨R, r1, r2, copy_neg r1 hPn, ?_, (copy_len hPne r1).1⟩
    rw [r3, Nat.mod_eq_of_lt (by omega)]

theorem posA_spec {A : Mpi} (hA : A.WF) (hne : A.p ≠ []) :
    ∃ P, posA A = .ok P ∧ P.WF ∧ P.neg = false ∧ P.mag = A.mag ∧ P.p ≠ [] ∧ P.p.length ≤ A.p.length := by
  unfold posA
  by_cases hn : A.neg = true
  · rw [if_pos hn]
    obtain ⟨R, r1, r2, r3, -, -⟩ := copy_spec Mpi.null_WF hA
    obtain ⟨-, l2⟩ := copy_len hne r1
    have hs := sig_le A.p
    have hpos : 0 < A.p.length := List.length_pos_iff.2 hne
    rw [show Mpi.null.p.length = 0 from rfl] at l2
    simp only [r1, Out.bind_ok, Out.pure_eq]
    exact ⟨_, rfl, ⟨r2.ok, r2.len⟩, rfl, by rw [mag_neg]; exact r3, fun h0 => by
      simp only at h0
      rw [h0, List.length_nil] at l2; omega, by simp only; omega⟩
  · rw [if_neg hn]
    exact ⟨A, rfl, hA, by simpa using hn, rfl, hne, le_refl _⟩

theorem odd_limb {X : Mpi} (hX : X.WF) : (X.p.getD 0 0) &&& 1 = X.mag % 2 := by
  rw [limb_eq hX.ok 0, Nat.and_one_is_mod, pow_zero, Nat.div_one]
  exact Nat.mod_mod_of_dvd _ (by norm_num)

theorem fixSign_spec {X E : Mpi} (hX : X.WF) (hXn : X.neg = false) (hN : N.WF) (hN0 : 0 < N.toInt) (hlt : X.mag < N.mag) (hE : E.WF) (neg : Bool) :
    ∃ R, fixSign X N E neg = .ok R ∧ R.WF ∧ R.toInt = if neg = true ∧ E.mag % 2 = 1 then (N.mag : Int) - X.mag else X.mag := by
  have hNm : N.toInt = N.mag := toInt_of_neg_false (neg_of_pos hN0)
  unfold fixSign
  rw [odd_limb hE]
  by_cases hc : neg = true ∧ E.mag % 2 = 1
  · have hEne : E.p ≠ [] := nonnil_of_mag (by omega)
    rw [if_pos hc, if_pos ⟨hc.1, hEne, by omega⟩]
    have hX' : Mpi.WF { X with neg := true } := ⟨hX.ok, hX.len⟩
    have hXt : Mpi.toInt { X with neg := true } = -(X.mag : Int) := by unfold Mpi.toInt; rfl
    have hNlt := hN.mag_lt
    obtain ⟨R, r1, r2, r3⟩ := (addMpi_spec (A := .ext N) (B := .self) hX' hN trivial).1 (by
      rw [show Arg.get { X with neg := true } (.ext N) = N from rfl, show Arg.get { X with neg := true } .self = { X with neg := true } from rfl,
        hXt, hNm]
      generalize W64 ^ maxLimbs = w at *
      omega)
    rw [show Arg.get { X with neg := true } (.ext N) = N from rfl, show Arg.get { X with neg := true } .self = { X with neg := true } from rfl,
        hXt, hNm] at r3
    exact ⟨R, r1, r2, by rw [r3]; ring⟩
  · rw [if_neg hc, if_neg (fun h => hc ⟨h.1, by omega⟩)]
    exact ⟨X, rfl, hX, toInt_of_neg_false hXn⟩

/-- The value the function computes. -/
def expVal (A E N : Mpi) : Int :=
  if A.neg = true ∧ E.mag % 2 = 1 then (N.mag : Int) - (A.mag ^ E.mag % N.mag : Nat) else (A.mag ^ E.mag % N.mag : Nat)

theorem expMod_spec {X E : Mpi} {A : Arg} {rr : Option Mpi} (hX : X.WF) (hA : A.WF) (hE : E.WF) (hN : N.WF) (hN0 : 0 < N.toInt) (hodd : N.mag % 2 = 1)
    (hE0 : 0 ≤ E.toInt) (hl : N.p.length ≤ 4998) (hAl : (A.get X).p.length + 2 ≤ maxLimbs) (hAne : ∀ m, A = .ext m → m.p ≠ []) (hc : CacheOk N rr) :
    ∃ R rr', expMod X A E N rr = .ok (R, rr') ∧ R.WF ∧ R.toInt = expVal (A.get X) E N ∧ CacheOk N rr' ∧ rr'.isSome = rr.isSome := by
  have hNm : N.toInt = N.mag := toInt_of_neg_false (neg_of_pos hN0)
  have hNne : N.p ≠ [] := nonnil_of_mag (by omega)
  have hn0 : limbAt N.p 0 = .ok (N.p.getD 0 0) := by
    unfold limbAt
    cases h : N.p with
    | nil => exact absurd h hNne
    | cons x r => rfl
  have hn1 : N.p.getD 0 0 &&& 1 = 1 := by rw [odd_limb hN, hodd]
  have hn0lt : N.p.getD 0 0 < W64 := by rw [limb_eq hN.ok 0]; exact Nat.mod_lt _ (by norm_num)
  obtain ⟨X1, x1, x2, x3, x4, x5, -⟩ := (grow_spec X hX (N.p.length + 1)).1 (by unfold maxLimbs; omega)
  obtain ⟨G, g1, g2, g3, g4, g5, -⟩ := (grow_spec Mpi.null Mpi.null_WF (N.p.length + 1)).1 (by unfold maxLimbs; omega)
  obtain ⟨T, t1, t2, t3, t4, t5, -⟩ := (grow_spec Mpi.null Mpi.null_WF ((N.p.length + 1) * 2)).1 (by unfold maxLimbs; omega)
  have hM : MontOk N (montgInit (N.p.getD 0 0)) T.p.length :=
    ⟨hN, hodd, (montgInit_spec (by rw [Nat.and_one_is_mod] at hn1; exact hn1)).1, by rw [t5]; omega⟩
  have hAX : (A.get X1).WF ∧ (A.get X1).p ≠ [] ∧ (A.get X1).p.length + 2 ≤ maxLimbs ∧ (A.get X1).mag = (A.get X).mag ∧ (A.get X1).neg = (A.get X).neg := by
    cases A with
    | self =>
      refine ⟨x2, ?_, ?_, x3, x4⟩
      · intro h0
        rw [show Arg.get X1 .self = X1 from rfl] at h0
        rw [h0, List.length_nil] at x5; omega
      · show X1.p.length + 2 ≤ maxLimbs
        rw [x5]
        have : X.p.length + 2 ≤ maxLimbs := hAl
        unfold maxLimbs at *
        omega
    | ext m => exact ⟨hA, hAne m rfl, hAl, rfl, rfl⟩
  obtain ⟨a1, a2, a3, a4, a5⟩ := hAX
  obtain ⟨P, p1, p2, p3, p4, p5, p6⟩ := posA_spec a1 a2
  obtain ⟨RR, rr', c1, c2, c3, c4, c5, c6, c7⟩ := getRR_spec hN hN0 hl hc
  obtain ⟨W0, w1, w2, w3, w4, w5⟩ := reduceA_spec hN hN0 g2 p2 p3 p5 (by omega)
  obtain ⟨W1, v1, v2, -⟩ := montmul_in (a := (A.get X).mag) hM w2 w3 (by rw [g5] at w5; omega) (by rw [w4]; exact Nat.mod_lt _ hM.pos)
    (by rw [w4, p4, a4]; exact Nat.mod_modEq _ _) c2 c4 c5
  obtain ⟨X2, y1, y2, y3, -, -⟩ := copy_spec x2 c2
  obtain ⟨X3, z1, z2, -⟩ := montred_one hM y2 (copy_neg y1 c3) (by have := (copy_len c4 y1).1; omega) (by rw [y3, c5])
  obtain ⟨hw1, hw6⟩ := winSize_bounds (bitlenL E)
  obtain ⟨W, b1, b2⟩ := table_spec hM (by unfold maxLimbs; omega) v2 hw1 hw6
  obtain ⟨s, s1, s2⟩ := expBits_spec (a := (A.get X).mag) hM b2 (bitsOf E.p) (e := 0) (s := ⟨X3, 0, 0, 0⟩) (bitsOf_le _)
    ⟨⟨0, 0, by simp, by simp, by simp, by simpa using z2, by simp, by simp⟩, hw1, by simp, by simp, by simp⟩
  rw [bitsOf_fold hE.ok, Nat.zero_mul, Nat.zero_add] at s2
  obtain ⟨⟨h0, p, i1, i2, i3, i4, -, -⟩, hbits, -, -, -⟩ := s2
  have hpw : p < 2 ^ winSize (bitlenL E) := lt_of_lt_of_le i2 (Nat.pow_le_pow_right (by decide) hbits.le)
  obtain ⟨X4, f1, f2⟩ := expRest_spec hM hw6 b2 hw1 hpw s.nbits hbits.le i4
  rw [Nat.mod_eq_of_lt i2, ← i1] at f2
  obtain ⟨X5, k1, k2, k3, k4, -⟩ := montred_out hM f2
  obtain ⟨R, r1, r2, r3⟩ := fixSign_spec (E := E) k2 k3 hN hN0 (by rw [k4]; exact Nat.mod_lt _ hM.pos) hE (A.get X).neg
  refine ⟨R, rr', ?_, r2, ?_, c6, c7⟩
  · unfold expMod
    rw [cmpInt_spec hN (by decide), if_neg (by unfold sgn; split_ifs <;> omega), hn0]
    simp only [Out.bind_ok]
    rw [hn1, if_neg (by decide), cmpInt_spec hE (by decide), if_neg (by unfold sgn; split_ifs <;> omega)]
    simp only [x1, g1, t1, Out.bind_ok, p1, c1, w1, v1, y1, z1, b1, s1, i3, f1, k1, a5, r1, Out.pure_eq]
  · rw [r3, k4]; rfl

end Verif.Bignum
