import Verif.Bignum.Kernel

/-!
# The versions of the multiplication loop are the same and add the product (C80)
-/

namespace Verif.Bignum.Kernel

open Verif

/-! ## Unrolled loops -/

theorem iter_add {σ : Type} (f : σ → Option σ) : ∀ (a b : Nat) (x : σ), iter f (a + b) x = iter f a x >>= iter f b
  | 0, b, x => by rw [Nat.zero_add]; rfl
  | a + 1, b, x => by
    rw [Nat.add_right_comm, iter, iter]
    cases f x with
    | none => rfl
    | some y => exact iter_add f a b y

theorem iter_wf {b : Nat} (hb : b < W64) : ∀ (n : Nat) {k k' : St}, WF k.mem → k.c < W64 → iter (absCore b) n k = some k' → WF k'.mem ∧ k'.c < W64
  | 0, k, k', hm, hc, h => by obtain rfl := Option.some.inj h; exact ⟨hm, hc⟩
  | n + 1, k, k', hm, hc, h => by
    rw [iter] at h
    cases e : absCore b k with
    | none => rw [e] at h; exact absurd h (by simp)
    | some q =>
      rw [e] at h
      have := absCore_wf hb hm hc e
      exact iter_wf hb n this.1 this.2 h

theorem loopBy_eq {block : St → Option St} {b n : Nat} (hb : b < W64) (hn : 0 < n)
    (hblk : ∀ k : St, WF k.mem → k.c < W64 → block k = iter (absCore b) n k) : ∀ (i : Nat) (k : St), WF k.mem → k.c < W64 →
    loopBy block n i k = (iter (absCore b) (n * (i / n)) k).map fun k => (i % n, k) := by
  intro i
  induction i using Nat.strongRecOn with
  | _ i ih =>
    intro k hm hc
    rw [loopBy]
    by_cases h : n ≤ i
    · rw [dif_pos ⟨h, hn⟩, hblk k hm hc]
      have hd : n * (i / n) = n + n * ((i - n) / n) := by
        rw [Nat.div_eq_sub_div hn h, Nat.mul_add, Nat.mul_one, Nat.add_comm]
      rw [hd, iter_add]
      cases e : iter (absCore b) n k with
      | none => rfl
      | some k' =>
        have hw := iter_wf hb n hm hc e
        have := ih (i - n) (by omega) k' hw.1 hw.2
        simp only [Option.bind_eq_bind, Option.bind_some]
        rw [this, Nat.mod_eq_sub_mod h]
    · have hlt : i < n := by omega
      rw [dif_neg (fun h' => h h'.1), Nat.div_eq_of_lt hlt, Nat.mod_eq_of_lt hlt, Nat.mul_zero]
      rfl

/-- The loops together: `i` times `MULADDC_CORE`, then the carry. -/
theorem mulHlp_eq {block : Nat → Nat → St → Option St} {b : Nat} (hb : b < W64)
    (hblk : ∀ (n : Nat) (k : St), WF k.mem → k.c < W64 → block b n k = iter (absCore b) n k) (fuel i s d : Nat) {m : Mem} (hm : WF m) :
    mulHlp block fuel i s d b m = (iter (absCore b) i ⟨0, s, d, m⟩ >>= finish fuel).map St.mem := by
  rw [mulHlp, loopBy_eq hb (by decide) (hblk 16) i _ hm (show (0 : Nat) < W64 by decide)]
  have hi : i = 16 * (i / 16) + (8 * (i % 16 / 8) + 1 * (i % 16 % 8 / 1)) := by omega
  conv_rhs => rw [hi, iter_add]
  cases e : iter (absCore b) (16 * (i / 16)) ⟨0, s, d, m⟩ with
  | none => rfl
  | some k =>
    have hw := iter_wf hb _ (k := ⟨0, s, d, m⟩) hm (by decide : (0 : Nat) < W64) e
    simp only [Option.bind_eq_bind, Option.map_some, Option.bind_some]
    rw [loopBy_eq hb (by decide) (hblk 8) (i % 16) k hw.1 hw.2, iter_add]
    cases e' : iter (absCore b) (8 * (i % 16 / 8)) k with
    | none => rfl
    | some k' =>
      have hw' := iter_wf hb _ hw.1 hw.2 e'
      simp only [Option.bind_eq_bind, Option.map_some, Option.bind_some]
      rw [loopBy_eq hb (by decide) (hblk 1) (i % 16 % 8) k' hw'.1 hw'.2]
      cases iter (absCore b) (1 * (i % 16 % 8 / 1)) k' with
      | none => rfl
      | some k'' =>
        simp only [Option.bind_eq_bind, Option.map_some, Option.bind_some]
        cases finish fuel k'' <;> rfl

/-! ## Arrays -/

/-- The words `l` from address `p` on. -/
def Arr (m : Mem) (p : Nat) (l : List Nat) : Prop := ∀ i (h : i < l.length), m (p + 8 * i) = some l[i]

/-- No word of the first array is a word of the second. -/
def Apart (p n q l : Nat) : Prop := ∀ i j, i < n → j < l → p + 8 * i ≠ q + 8 * j

theorem Arr.head {m : Mem} {p x : Nat} {l : List Nat} (h : Arr m p (x :: l)) : m p = some x := h 0 (by simp)
theorem Arr.tail {m : Mem} {p x : Nat} {l : List Nat} (h : Arr m p (x :: l)) : Arr m (p + 8) l := fun i hi => by
  have := h (i + 1) (by simpa using hi)
  rw [show p + 8 * (i + 1) = p + 8 + 8 * i by omega] at this
  simpa using this

theorem finish_ok : ∀ {fuel : Nat} {D : List Nat} {k : St} {R : List Nat}, D.length ≤ fuel → Arr k.mem k.d D → k.d + 8 * D.length < W64 →
    mulFinish k.c D = some R → ∃ k', finish fuel k = some k' ∧ Arr k'.mem k.d R ∧ R.length = D.length ∧
      (∀ a, (∀ j, j < D.length → a ≠ k.d + 8 * j) → k'.mem a = k.mem a) := by
  intro fuel
  induction fuel with
  | zero =>
    intro D k R hf _ _ h
    cases D with
    | nil => simp [mulFinish] at h
    | cons x r => simp at hf
  | succ fuel ih =>
    intro D k R hf ha hb h
    cases D with
    | nil => simp [mulFinish] at h
    | cons x r =>
      rw [List.length_cons] at hb
      have hx := ha.head
      rw [mulFinish] at h
      rw [finish]
      simp only [hx, Option.bind_eq_bind, Option.bind_some, store_some hx, Nat.mod_eq_of_lt (show k.d + 8 < W64 by omega)]
      by_cases hlt : (x + k.c) % W64 < k.c
      · rw [if_pos hlt] at h
        have hl : less ((x + k.c) % W64) k.c = 1 := if_pos hlt
        rw [hl]
        cases hr : mulFinish 1 r with
        | none => rw [hr] at h; simp at h
        | some r' =>
          rw [hr] at h
          obtain rfl := Option.some.inj h
          obtain ⟨k', e1, e2, e3, e4⟩ := ih (D := r) (R := r')
            (k := ⟨1, k.s, k.d + 8, fun a => if a = k.d then some ((x + k.c) % W64) else k.mem a⟩) (by simpa using hf) (fun i hi => by
              show (if k.d + 8 + 8 * i = k.d then _ else k.mem (k.d + 8 + 8 * i)) = _
              rw [if_neg (by omega)]
              exact ha.tail i hi) (by show k.d + 8 + 8 * r.length < W64; omega) hr
          refine ⟨k', by simpa using e1, ?_, by simp [e3], ?_⟩
          · intro i hi
            cases i with
            | zero =>
              rw [Nat.mul_zero, Nat.add_zero, e4 k.d (fun j _ => by show k.d ≠ k.d + 8 + 8 * j; omega)]
              simp
            | succ i =>
              rw [show k.d + 8 * (i + 1) = k.d + 8 + 8 * i by omega]
              simpa using e2 i (by simpa using hi)
          · intro a hna
            rw [e4 a (fun j hj => by
              have := hna (j + 1) (by simpa using hj)
              show a ≠ k.d + 8 + 8 * j
              omega)]
            exact if_neg (by have := hna 0 (by simp); omega)
      · rw [if_neg hlt] at h
        obtain rfl := Option.some.inj h
        have hl : less ((x + k.c) % W64) k.c = 0 := if_neg hlt
        rw [hl]
        refine ⟨_, by simp; rfl, ?_, by simp, ?_⟩
        · intro i hi
          cases i with
          | zero => simp
          | succ i =>
            show (if k.d + 8 * (i + 1) = k.d then _ else k.mem (k.d + 8 * (i + 1))) = _
            rw [if_neg (by omega)]
            exact ha (i + 1) (by simpa using hi)
        · intro a hna
          exact if_neg (by have := hna 0 (by simp); omega)

theorem pair_eq {s b c d : Nat} (hs : s < W64) (hb : b < W64) (hc : c < W64) (hd : d < W64) :
    muladdc s b c d = ((s * b + c + d) % W64, (s * b + c + d) / W64) := by
  obtain ⟨h1, h2, h3⟩ := muladdc_eq hs hb hc hd
  generalize s * b + c + d = t at *
  apply Prod.ext <;> simp only <;> omega

theorem rows_ok {b fuel : Nat} (hb : b < W64) : ∀ {S D : List Nat} {k : St} {R : List Nat}, D.length ≤ fuel → WF k.mem → k.c < W64 →
    Arr k.mem k.s S → Arr k.mem k.d D → Apart k.s S.length k.d D.length → k.s + 8 * S.length < W64 → k.d + 8 * D.length < W64 →
    mulLoop b k.c S D = some R → ∃ k', (iter (absCore b) S.length k >>= finish fuel) = some k' ∧ Arr k'.mem k.d R ∧ R.length = D.length ∧
      (∀ a, (∀ j, j < D.length → a ≠ k.d + 8 * j) → k'.mem a = k.mem a) := by
  intro S
  induction S with
  | nil =>
    intro D k R hf _ _ _ ha _ _ hd h
    rw [mulLoop] at h
    exact finish_ok hf ha hd h
  | cons x S ih =>
    intro D k R hf hm hc hs ha hap hbs hbd h
    cases D with
    | nil => simp [mulLoop] at h
    | cons y D =>
      rw [List.length_cons] at hbs hbd
      have hx := hs.head
      have hy := ha.head
      rw [mulLoop, pair_eq (hm _ _ hx) hb hc (hm _ _ hy)] at h
      have hac := absCore_some (b := b) hx hy
      have hw := absCore_wf hb hm hc hac
      rw [Nat.mod_eq_of_lt (show k.s + 8 < W64 by omega), Nat.mod_eq_of_lt (show k.d + 8 < W64 by omega)] at hac hw
      cases hr : mulLoop b ((x * b + k.c + y) / W64) S D with
      | none => simp only [hr, Option.bind_eq_bind, Option.bind_none] at h; exact absurd h (by simp)
      | some r =>
        simp only [hr, Option.bind_eq_bind, Option.bind_some, Option.pure_def] at h
        obtain rfl := Option.some.inj h
        obtain ⟨k', e1, e2, e3, e4⟩ := ih (D := D) (R := r)
          (k := ⟨(x * b + k.c + y) / W64, k.s + 8, k.d + 8, fun a => if a = k.d then some ((x * b + k.c + y) % W64) else k.mem a⟩)
          (by have : D.length + 1 ≤ fuel := by simpa using hf
              omega) hw.1 hw.2
          (fun i hi => by
            show (if k.s + 8 + 8 * i = k.d then _ else k.mem (k.s + 8 + 8 * i)) = _
            rw [if_neg (by have := hap (i + 1) 0 (by simpa using hi) (by simp); omega)]
            exact hs.tail i hi)
          (fun i hi => by
            show (if k.d + 8 + 8 * i = k.d then _ else k.mem (k.d + 8 + 8 * i)) = _
            rw [if_neg (by omega)]
            exact ha.tail i hi)
          (fun i j hi hj => by
            have := hap (i + 1) (j + 1) (by simpa using hi) (by simpa using hj)
            show k.s + 8 + 8 * i ≠ k.d + 8 + 8 * j
            omega)
          (by show k.s + 8 + 8 * S.length < W64; omega) (by show k.d + 8 + 8 * D.length < W64; omega) hr
        refine ⟨k', ?_, ?_, by simp [e3], ?_⟩
        · rw [List.length_cons, iter, hac]; exact e1
        · intro i hi
          cases i with
          | zero =>
            rw [Nat.mul_zero, Nat.add_zero, e4 k.d (fun j _ => by show k.d ≠ k.d + 8 + 8 * j; omega)]
            simp
          | succ i =>
            rw [show k.d + 8 * (i + 1) = k.d + 8 + 8 * i by omega]
            simpa using e2 i (by simpa using hi)
        · intro a hna
          rw [e4 a (fun j hj => by
            have := hna (j + 1) (by simpa using hj)
            show a ≠ k.d + 8 + 8 * j
            omega)]
          exact if_neg (by have := hna 0 (by simp); omega)

/-! ## C80 -/

/-- The three versions do the same to every memory, for all arguments, overlapping arrays and faults included. -/
theorem c80_same (junk : Reg → Nat) (fuel i s d : Nat) {b : Nat} (hb : b < W64) {m : Mem} (hm : WF m) :
    mulHlp (asmBlock junk) fuel i s d b m = mulHlp udblBlock fuel i s d b m ∧
    mulHlp halfBlock fuel i s d b m = mulHlp udblBlock fuel i s d b m := by
  rw [mulHlp_eq hb (fun n k h1 h2 => asm_eq junk hb n h1 h2) fuel i s d hm, mulHlp_eq hb (fun n k h1 h2 => udblBlock_eq hb n h1 h2) fuel i s d hm,
    mulHlp_eq hb (fun n k h1 h2 => halfBlock_eq hb n h1 h2) fuel i s d hm]
  exact ⟨rfl, rfl⟩

/-- One `asm` statement with one `MULADDC_CORE`: the product, the carry and the word at `d`, in two words; the pointers one word further; no other
word changed; whatever was in the other registers. -/
theorem c80_core (junk : Reg → Nat) {b : Nat} (hb : b < W64) {k : St} (hm : WF k.mem) (hc : k.c < W64) {v y : Nat} (hs : k.mem k.s = some v)
    (hd : k.mem k.d = some y) : ∃ k', asmBlock junk b 1 k = some k' ∧ (∃ w, k'.mem k.d = some w ∧ w + W64 * k'.c = v * b + k.c + y ∧ w < W64) ∧
      k'.c < W64 ∧ k'.s = (k.s + 8) % W64 ∧ k'.d = (k.d + 8) % W64 ∧ (∀ a, a ≠ k.d → k'.mem a = k.mem a) := by
  rw [asm_eq junk hb 1 hm hc, iter, absCore_some hs hd]
  refine ⟨_, rfl, ⟨_, if_pos rfl, ?_, Nat.mod_lt _ (by decide)⟩, quot_lt (hm _ _ hs) hb hc (hm _ _ hd), rfl, rfl, fun a ha => if_neg ha⟩
  exact Nat.mod_add_div _ _

/-- `mpi_mul_hlp` in memory is `mulHlp` of the model of `bignum.c`, for each version: the words of `d` become its result, no other word changes.
`fuel` only has to be at least the length of `d`. -/
theorem c80_model {block : Nat → Nat → St → Option St} {b : Nat} (hb : b < W64) (junk : Reg → Nat)
    (hblock : block = asmBlock junk ∨ block = udblBlock ∨ block = halfBlock) {S D R : List Nat} {m : Mem} {s d fuel : Nat} (hm : WF m)
    (hs : Arr m s S) (hd : Arr m d D) (hap : Apart s S.length d D.length) (hbs : s + 8 * S.length < W64) (hbd : d + 8 * D.length < W64)
    (hf : D.length ≤ fuel) (h : Bignum.mulHlp S D b = some R) :
    ∃ m', mulHlp block fuel S.length s d b m = some m' ∧ Arr m' d R ∧ R.length = D.length ∧
      (∀ a, (∀ j, j < D.length → a ≠ d + 8 * j) → m' a = m a) := by
  have hblk : ∀ (n : Nat) (k : St), WF k.mem → k.c < W64 → block b n k = iter (absCore b) n k := by
    rcases hblock with rfl | rfl | rfl
    · exact fun n k h1 h2 => asm_eq junk hb n h1 h2
    · exact fun n k h1 h2 => udblBlock_eq hb n h1 h2
    · exact fun n k h1 h2 => halfBlock_eq hb n h1 h2
  rw [mulHlp_eq hb hblk fuel S.length s d hm]
  obtain ⟨k', e1, e2, e3, e4⟩ := rows_ok (fuel := fuel) hb (k := ⟨0, s, d, m⟩) hf hm (by decide : (0 : Nat) < W64) hs hd hap hbs hbd h
  exact ⟨k'.mem, by rw [e1]; rfl, e2, e3, e4⟩

/-- In numbers: `mpi_mul_hlp` adds `b` times the number at `s` to the number at `d`, if `d` is longer and the sum fits, and changes nothing else. -/
theorem c80_value {block : Nat → Nat → St → Option St} {b : Nat} (hb : b < W64) (junk : Reg → Nat)
    (hblock : block = asmBlock junk ∨ block = udblBlock ∨ block = halfBlock) {S D : List Nat} {m : Mem} {s d fuel : Nat} (hm : WF m)
    (hs : Arr m s S) (hd : Arr m d D) (hap : Apart s S.length d D.length) (hbs : s + 8 * S.length < W64) (hbd : d + 8 * D.length < W64)
    (hf : D.length ≤ fuel) (hl : S.length < D.length) (hv : b * val S + val D < W64 ^ D.length) :
    ∃ m' R, mulHlp block fuel S.length s d b m = some m' ∧ Arr m' d R ∧ R.length = D.length ∧ LOk R ∧ val R = b * val S + val D ∧
      (∀ a, (∀ j, j < D.length → a ≠ d + 8 * j) → m' a = m a) := by
  have lok : ∀ {p : Nat} {l : List Nat}, Arr m p l → LOk l := fun {p l} ha x hx => by
    obtain ⟨i, hi, rfl⟩ := List.getElem_of_mem hx
    exact hm _ _ (ha i hi)
  obtain ⟨R, h1, h2, h3, h4⟩ := mulHlp_val hb (lok hs) (lok hd) hl hv
  obtain ⟨m', e1, e2, e3, e4⟩ := c80_model hb junk hblock hm hs hd hap hbs hbd hf h1
  exact ⟨m', R, e1, e2, e3, h3, h2, e4⟩

/-! ## Examples -/

/-- A memory with two arrays: three words at 64 and five at 256. -/
def exMem : Mem := fun a =>
  if a = 64 then some 18446744073709551615 else if a = 72 then some 7 else if a = 80 then some 18446744073709551614
  else if a = 256 then some 1 else if a = 264 then some 18446744073709551615 else if a = 272 then some 5 else if a = 280 then some 18446744073709551615
  else if a = 288 then some 0 else none

theorem exMem_wf : WF exMem := by
  intro a v h
  unfold exMem at h
  repeat' split at h
  all_goals first | (obtain rfl := Option.some.inj h; decide) | exact absurd h (by simp)

example : ∃ m' R, mulHlp (asmBlock fun _ => 99) 5 3 64 256 18446744073709551615 exMem = some m' ∧ Arr m' 256 R ∧ R.length = 5 ∧ LOk R ∧
    val R = 18446744073709551615 * val [18446744073709551615, 7, 18446744073709551614] +
      val [1, 18446744073709551615, 5, 18446744073709551615, 0] ∧ (∀ a, (∀ j, j < 5 → a ≠ 256 + 8 * j) → m' a = exMem a) :=
  c80_value (S := [18446744073709551615, 7, 18446744073709551614]) (D := [1, 18446744073709551615, 5, 18446744073709551615, 0]) (by decide) _
    (Or.inl rfl) exMem_wf
    (fun i h => by
      have h3 : i < 3 := h
      match i, h3 with
      | 0, _ | 1, _ | 2, _ => rfl)
    (fun i h => by
      have h5 : i < 5 := h
      match i, h5 with
      | 0, _ | 1, _ | 2, _ | 3, _ | 4, _ => rfl)
    (fun i j hi hj => by
      have : i < 3 := hi
      have : j < 5 := hj
      omega) (by decide) (by decide) (by decide) (by decide) (by decide +kernel)

/-- The assembly on one word: (2^64 - 1)^2 + 2 (2^64 - 1) is the largest sum, and it fits. -/
example : (asmBlock (fun _ => 3) 18446744073709551615 1 ⟨18446744073709551615, 0, 8, fun a => if a = 0 ∨ a = 8 then some 18446744073709551615 else none⟩).map
    (fun k => (k.c, k.s, k.d, k.mem 0, k.mem 8)) = some (18446744073709551615, 8, 16, some 18446744073709551615, some 18446744073709551615) := by decide

/-- Overlapping arrays, `d` one word after `s`: the versions still agree. -/
example : mulHlp (asmBlock fun _ => 0) 9 2 256 264 3 exMem = mulHlp udblBlock 9 2 256 264 3 exMem := (c80_same _ 9 2 256 264 (by decide) exMem_wf).1

end Verif.Bignum.Kernel
