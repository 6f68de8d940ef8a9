import Verif.Bignum.ModelKernel
import Verif.Bignum.Limbs

/-!
# The three versions of `MULADDC` are the same (for C80)
-/

namespace Verif.Bignum.Kernel

open Verif

/-- Words are below 2^64. -/
def WF (m : Mem) : Prop := ∀ a v, m a = some v → v < W64

/-- What one `MULADDC_CORE` does. -/
def absCore (b : Nat) (k : St) : Option St := do
  let v ← k.mem k.s
  let y ← k.mem k.d
  let m ← store k.mem k.d ((v * b + k.c + y) % W64)
  pure ⟨(v * b + k.c + y) / W64, (k.s + 8) % W64, (k.d + 8) % W64, m⟩

theorem store_none {m : Mem} {a v : Nat} (h : m a = none) : store m a v = none := by rw [store, h]
theorem store_some {m : Mem} {a v w : Nat} (h : m a = some w) : store m a v = some (fun x => if x = a then some v else m x) := by rw [store, h]

theorem store_wf {m m' : Mem} {a v : Nat} (hm : WF m) (hv : v < W64) (h : store m a v = some m') : WF m' := by
  cases e : m a with
  | none => rw [store_none e] at h; exact absurd h (by simp)
  | some w =>
    rw [store_some e] at h
    obtain rfl := Option.some.inj h
    intro x u hu
    simp only at hu
    split at hu
    · exact Option.some.inj hu ▸ hv
    · exact hm x u hu

theorem quot_lt {v b c y : Nat} (hv : v < W64) (hb : b < W64) (hc : c < W64) (hy : y < W64) : (v * b + c + y) / W64 < W64 := by
  have h : v * b ≤ (W64 - 1) * (W64 - 1) := Nat.mul_le_mul (by omega) (by omega)
  omega

/-- `absCore` step by step. -/
theorem absCore_none_s {b : Nat} {k : St} (h : k.mem k.s = none) : absCore b k = none := by
  simp only [absCore, h, Option.bind_eq_bind, Option.bind_none]

theorem absCore_none_d {b : Nat} {k : St} (h : k.mem k.d = none) : absCore b k = none := by
  cases e : k.mem k.s <;> simp [absCore, h, e]

theorem absCore_some {b v y : Nat} {k : St} (hs : k.mem k.s = some v) (hd : k.mem k.d = some y) :
    absCore b k = some ⟨(v * b + k.c + y) / W64, (k.s + 8) % W64, (k.d + 8) % W64,
      fun x => if x = k.d then some ((v * b + k.c + y) % W64) else k.mem x⟩ := by
  simp only [absCore, hs, hd, Option.bind_eq_bind, Option.bind_some, store_some hd, Option.pure_def]

theorem absCore_wf {b : Nat} (hb : b < W64) {k k' : St} (hm : WF k.mem) (hc : k.c < W64) (h : absCore b k = some k') :
    WF k'.mem ∧ k'.c < W64 := by
  cases hs : k.mem k.s with
  | none => rw [absCore_none_s hs] at h; exact absurd h (by simp)
  | some v =>
    cases hd : k.mem k.d with
    | none => rw [absCore_none_d hd] at h; exact absurd h (by simp)
    | some y =>
      rw [absCore_some hs hd] at h
      obtain rfl := Option.some.inj h
      refine ⟨?_, quot_lt (hm _ _ hs) hb hc (hm _ _ hd)⟩
      intro x u hu
      simp only at hu
      split at hu
      · exact Option.some.inj hu ▸ Nat.mod_lt _ (by decide)
      · exact hm x u hu

/-! ## Double-width C -/

theorem addc {r0 c : Nat} (h0 : r0 < W64) (hc : c < W64) :
    (r0 + c) % W64 + W64 * less ((r0 + c) % W64) c = r0 + c := by
  unfold less
  split <;> omega

theorem udbl_eq {b : Nat} (hb : b < W64) {k : St} (hm : WF k.mem) (hc : k.c < W64) : udblCore b k = absCore b k := by
  cases hs : k.mem k.s with
  | none => rw [absCore_none_s hs]; simp [udblCore, hs]
  | some v =>
    cases hd : k.mem k.d with
    | none => rw [absCore_none_d hd]; simp [udblCore, hs, hd]
    | some y =>
      rw [absCore_some hs hd]
      simp only [udblCore, hs, hd, Option.bind_eq_bind, Option.bind_some, store_some hd, Option.pure_def]
      have hv := hm _ _ hs
      have hy := hm _ _ hd
      have hq := quot_lt hv hb hc hy
      generalize v * b = p at *
      have e1 := addc (r0 := p % W64) (c := k.c) (Nat.mod_lt _ (by decide)) hc
      have e2 := addc (r0 := (p % W64 + k.c) % W64) (c := y) (Nat.mod_lt _ (by decide)) hy
      have hl0 := Nat.mod_lt ((p % W64 + k.c) % W64 + y) (show 0 < W64 by decide)
      generalize ((p % W64 + k.c) % W64 + y) % W64 = z0 at *
      generalize (p % W64 + k.c) % W64 = z1 at *
      generalize less z0 y = u at *
      generalize less z1 k.c = w at *
      have h0 : z0 = (p + k.c + y) % W64 := by omega
      have h1 : ((p / W64 + w) % W64 + u) % W64 = (p + k.c + y) / W64 := by omega
      rw [h1, h0]

/-! ## Single-width C -/

theorem low_half (v : Nat) : (v <<< 32 % W64) >>> 32 = v % 4294967296 := by
  rw [Nat.shiftLeft_eq, Nat.shiftRight_eq_div_pow]
  omega

theorem high_half (v : Nat) : v >>> 32 = v / 4294967296 := by rw [Nat.shiftRight_eq_div_pow]

theorem half_shift (v : Nat) : v <<< 32 % W64 = (v % 4294967296) * 4294967296 := by
  rw [Nat.shiftLeft_eq]
  omega

theorem half_lt {a b : Nat} (ha : a < 4294967296) (hb : b < 4294967296) : a * b ≤ 18446744065119617025 := by
  have h : a * b ≤ 4294967295 * 4294967295 := Nat.mul_le_mul (by omega) (by omega)
  omega

theorem half_eq {b : Nat} (hb : b < W64) {k : St} (hm : WF k.mem) (hc : k.c < W64) :
    halfCore ((b <<< 32 % W64) >>> 32) (b >>> 32) k = absCore b k := by
  cases hs : k.mem k.s with
  | none => rw [absCore_none_s hs]; simp [halfCore, hs]
  | some v =>
    cases hd : k.mem k.d with
    | none => rw [absCore_none_d hd]; simp [halfCore, hs, hd]
    | some y =>
      rw [absCore_some hs hd]
      simp only [halfCore, hs, hd, Option.bind_eq_bind, Option.bind_some, store_some hd, Option.pure_def]
      have hv := hm _ _ hs
      have hy := hm _ _ hd
      have hq := quot_lt hv hb hc hy
      simp only [low_half]
      simp only [half_shift, high_half]
      have hv0 : v % 4294967296 < 4294967296 := Nat.mod_lt _ (by decide)
      have hb0 : b % 4294967296 < 4294967296 := Nat.mod_lt _ (by decide)
      have hv1 : v / 4294967296 < 4294967296 := by omega
      have hb1 : b / 4294967296 < 4294967296 := by omega
      have hvb : v * b = (v / 4294967296) * (b / 4294967296) * W64 + ((v % 4294967296) * (b / 4294967296) + (v / 4294967296) * (b % 4294967296)) * 4294967296 +
          (v % 4294967296) * (b % 4294967296) := by
        conv_lhs => rw [← Nat.div_add_mod v 4294967296, ← Nat.div_add_mod b 4294967296]
        ring
      rw [hvb] at hq ⊢
      have m00 := half_lt hv0 hb0
      have m01 := half_lt hv0 hb1
      have m10 := half_lt hv1 hb0
      have m11 := half_lt hv1 hb1
      generalize v / 4294967296 * (b / 4294967296) = p11 at *
      generalize v % 4294967296 * (b / 4294967296) = p01 at *
      generalize v / 4294967296 * (b % 4294967296) = p10 at *
      generalize v % 4294967296 * (b % 4294967296) = p00 at *
      rw [Nat.mod_eq_of_lt (show p00 < W64 by omega), Nat.mod_eq_of_lt (show p01 < W64 by omega),
        Nat.mod_eq_of_lt (show p10 < W64 by omega), Nat.mod_eq_of_lt (show p11 < W64 by omega)]
      have f1 := addc (r0 := p00) (c := p01 % 4294967296 * 4294967296) (by omega) (by omega)
      have g1 := Nat.mod_lt (p00 + p01 % 4294967296 * 4294967296) (show 0 < W64 by decide)
      generalize (p00 + p01 % 4294967296 * 4294967296) % W64 = z1 at *
      generalize less z1 (p01 % 4294967296 * 4294967296) = u1 at *
      have f2 := addc (r0 := z1) (c := p10 % 4294967296 * 4294967296) g1 (by omega)
      have g2 := Nat.mod_lt (z1 + p10 % 4294967296 * 4294967296) (show 0 < W64 by decide)
      generalize (z1 + p10 % 4294967296 * 4294967296) % W64 = z2 at *
      generalize less z2 (p10 % 4294967296 * 4294967296) = u2 at *
      have f3 := addc (r0 := z2) (c := k.c) g2 hc
      have g3 := Nat.mod_lt (z2 + k.c) (show 0 < W64 by decide)
      generalize (z2 + k.c) % W64 = z3 at *
      generalize less z3 k.c = u3 at *
      have f4 := addc (r0 := z3) (c := y) g3 hy
      have g4 := Nat.mod_lt (z3 + y) (show 0 < W64 by decide)
      generalize (z3 + y) % W64 = z4 at *
      generalize less z4 y = u4 at *
      have e0 : z4 = (p11 * W64 + (p01 + p10) * 4294967296 + p00 + k.c + y) % W64 := by omega
      have e1 : ((((((p11 + p01 / 4294967296) % W64 + p10 / 4294967296) % W64 + u1) % W64 + u2) % W64 + u3) % W64 + u4) % W64 =
          (p11 * W64 + (p01 + p10) * 4294967296 + p00 + k.c + y) / W64 := by
        have : p11 * W64 + (p01 + p10) * 4294967296 + p00 + k.c + y =
            z4 + W64 * (p11 + p01 / 4294967296 + p10 / 4294967296 + u1 + u2 + u3 + u4) := by omega
        rw [this, Nat.add_mul_div_left _ _ (by decide), Nat.div_eq_of_lt g4] at hq ⊢
        omega
      rw [e1, ← e0]

/-! ## Assembly -/

theorem run_append (a b : List Ins) (x : Cpu) : run (a ++ b) x = run a x >>= run b := by
  induction a generalizing x with
  | nil => rfl
  | cons i a ih =>
    show step x i >>= run (a ++ b) = (step x i >>= run a) >>= run b
    cases step x i with
    | none => rfl
    | some y => exact ih y

/-- The variables in the registers. -/
def abs (x : Cpu) : St := ⟨x.reg .rcx, x.reg .rsi, x.reg .rdi, x.mem⟩

theorem bit_carry {a c : Nat} (ha : a < W64) (hc : c < W64) : bit (decide (W64 ≤ a + c)) = (a + c) / W64 := by
  unfold bit
  by_cases h : W64 ≤ a + c
  · rw [if_pos (by simpa using h)]; omega
  · rw [if_neg (by simpa using h)]; omega

theorem asm_none_s {x : Cpu} (h : x.mem (x.reg .rsi) = none) : run asmCore x = none := by
  simp [asmCore, run, step, h]

theorem asm_none_d {x : Cpu} (h : x.mem (x.reg .rdi) = none) : run asmCore x = none := by
  cases hs : x.mem (x.reg .rsi) with
  | none => exact asm_none_s hs
  | some v => simp [asmCore, run, step, hs, h, Cpu.set]

theorem asm_some {x : Cpu} {v y : Nat} (hs : x.mem (x.reg .rsi) = some v) (hd : x.mem (x.reg .rdi) = some y) (h8 : x.reg .r8 = 0)
    (hv : v < W64) (hy : y < W64) (hb : x.reg .rbx < W64) (hc : x.reg .rcx < W64) :
    ∃ x', run asmCore x = some x' ∧ abs x' = ⟨(v * x.reg .rbx + x.reg .rcx + y) / W64, (x.reg .rsi + 8) % W64, (x.reg .rdi + 8) % W64,
      fun a => if a = x.reg .rdi then some ((v * x.reg .rbx + x.reg .rcx + y) % W64) else x.mem a⟩ ∧
      x'.reg .r8 = 0 ∧ x'.reg .rbx = x.reg .rbx := by
  have hq := quot_lt hv hb hc hy
  simp only [asmCore, run, step, hs, Cpu.set, Option.map_some, Option.bind_eq_bind, Option.bind_some, reduceCtorEq, if_true, if_false, hd,
    store_some hd, h8]
  refine ⟨_, rfl, ?_, by simpa using h8, by simp⟩
  simp only [abs, reduceCtorEq, if_true, if_false]
  generalize hp : v * x.reg .rbx = p at *
  have c1 := bit_carry (a := p % W64) (c := x.reg .rcx) (Nat.mod_lt _ (by decide)) hc
  have c2 := bit_carry (a := y) (c := (p % W64 + x.reg .rcx) % W64) hy (Nat.mod_lt _ (by decide))
  rw [c1, c2]
  have e0 : (y + (p % W64 + x.reg .rcx) % W64) % W64 = (p + x.reg .rcx + y) % W64 := by omega
  have e1 : (0 + (p / W64 + 0 + (p % W64 + x.reg .rcx) / W64) % W64 + (y + (p % W64 + x.reg .rcx) % W64) / W64) % W64 =
      (p + x.reg .rcx + y) / W64 := by omega
  rw [e0, e1]

theorem asm_iter {b : Nat} (hb : b < W64) : ∀ (n : Nat) (x : Cpu), x.reg .r8 = 0 → x.reg .rbx = b → WF x.mem → x.reg .rcx < W64 →
    (run (List.replicate n asmCore).flatten x).map abs = iter (absCore b) n (abs x) := by
  intro n
  induction n with
  | zero => intro x _ _ _ _; rfl
  | succ n ih =>
    intro x h8 hbx hm hc
    rw [List.replicate_succ, List.flatten_cons, run_append, iter]
    cases hs : x.mem (x.reg .rsi) with
    | none => rw [asm_none_s hs, absCore_none_s (k := abs x) hs]; rfl
    | some v =>
      cases hd : x.mem (x.reg .rdi) with
      | none => rw [asm_none_d hd, absCore_none_d (k := abs x) hd]; rfl
      | some y =>
        obtain ⟨x', e1, e2, e3, e4⟩ := asm_some hs hd h8 (hm _ _ hs) (hm _ _ hd) (hbx ▸ hb) hc
        rw [hbx] at e2 e4
        have ha := absCore_some (b := b) (k := abs x) hs hd
        have hw := absCore_wf hb (k := abs x) hm hc ha
        change absCore b (abs x) = some ⟨(v * b + x.reg .rcx + y) / W64, (x.reg .rsi + 8) % W64, (x.reg .rdi + 8) % W64,
          fun a => if a = x.reg .rdi then some ((v * b + x.reg .rcx + y) % W64) else x.mem a⟩ at ha
        rw [← e2] at ha
        have hw' : WF x'.mem ∧ x'.reg .rcx < W64 := absCore_wf hb (k := abs x) hm hc ha
        rw [e1, ha]
        exact ih x' e3 e4 hw'.1 hw'.2

theorem asm_eq (junk : Reg → Nat) {b : Nat} (hb : b < W64) (n : Nat) {k : St} (hm : WF k.mem) (hc : k.c < W64) :
    asmBlock junk b n k = iter (absCore b) n k := by
  rw [asmBlock, run_append]
  have := asm_iter hb n (Cpu.mk (fun r => if r = .r8 then 0 else match r with
    | .rcx => k.c
    | .rdi => k.d
    | .rsi => k.s
    | .rbx => b
    | r => junk r) false k.mem) (by simp) (by simp) hm (by simpa using hc)
  rw [show abs _ = k from rfl] at this
  rw [← this]
  simp only [asmInit, run, step, Cpu.set, Nat.xor_self, Option.bind_eq_bind, Option.bind_some]
  rfl

theorem iter_congr {f g : St → Option St} {b : Nat} (hb : b < W64) (hf : ∀ k, WF k.mem → k.c < W64 → f k = absCore b k)
    (hg : g = absCore b) : ∀ (n : Nat) (k : St), WF k.mem → k.c < W64 → iter f n k = iter g n k := by
  intro n
  induction n with
  | zero => intro k _ _; rfl
  | succ n ih =>
    intro k hm hc
    rw [iter, iter, hf k hm hc, hg]
    cases e : absCore b k with
    | none => rfl
    | some k' =>
      have := absCore_wf hb hm hc e
      have h := ih k' this.1 this.2
      rw [hg] at h
      exact h

theorem udblBlock_eq {b : Nat} (hb : b < W64) (n : Nat) {k : St} (hm : WF k.mem) (hc : k.c < W64) : udblBlock b n k = iter (absCore b) n k :=
  iter_congr hb (fun _ h1 h2 => udbl_eq hb h1 h2) rfl n k hm hc

theorem halfBlock_eq {b : Nat} (hb : b < W64) (n : Nat) {k : St} (hm : WF k.mem) (hc : k.c < W64) : halfBlock b n k = iter (absCore b) n k :=
  iter_congr hb (fun _ h1 h2 => half_eq hb h1 h2) rfl n k hm hc

end Verif.Bignum.Kernel
