import Verif.Rsa.PropsPool
import Verif.Mac.PropsGame

/-!
# C92: the distribution of sampled and generated messages

`sample` and `generate` reduce 264 bytes modulo `N`; the message is as good as uniform among the numbers below `N`.
-/

namespace Verif.Rsa

open Verif Verif.Bignum Verif.Tdp Verif.Avg Verif.Oracle

/-- The message with number `x`. -/
def msg (x : Nat) : Bytes := beBytes 256 x

theorem generate_eq {c : Ctx} (h : Good c) (h0 : 0 < c.N.mag) (h2 : c.N.mag < 256 ^ 256) {rnd : Bytes} (hr : rnd.length = 264) :
    generate c rnd = .ok (msg (beNat rnd % c.N.mag)) := by
  have hlt := Nat.mod_lt (beNat rnd) h0
  rw [generate_run h hr]
  show (do let x ← orThrow .runtimeError (mpiMod (beNat rnd : Int) c.N.mag); pure (writeZeroed x) : Res Bytes) = _
  rw [mpiMod_nat h0]
  simp only [orThrow, Res.bind_ok, writeZeroed]
  unfold msgSize
  rw [mpiWrite_some (lt_trans hlt h2)]
  rfl

theorem sample_eq {g : Rng} (hg : Total g) {c : Ctx} (h : Good c) (h0 : 0 < c.N.mag) (h2 : c.N.mag < 256 ^ 256) (i : Nat) :
    sample g c i = .ok (msg (nums g i 264 % c.N.mag)) := by
  have hlt := Nat.mod_lt (nums g i 264) h0
  rw [sample_run hg h]
  show (do let x ← orThrow .runtimeError (mpiMod (nums g i 264 : Int) c.N.mag); pure (writeZeroed x) : Res Bytes) = _
  rw [mpiMod_nat h0]
  simp only [orThrow, Res.bind_ok, writeZeroed]
  unfold msgSize
  rw [mpiWrite_some (lt_trans hlt h2)]
  rfl

theorem small {N : Nat} (h2 : N < 256 ^ 256) : ((N : ℚ) / (4 * (256 ^ 264 : Nat))) ≤ 1 / 2 ^ 66 := by
  have h : (N : ℚ) ≤ 2 ^ 2048 := by
    have : N ≤ 2 ^ 2048 := by
      rw [show (2 : Nat) ^ 2048 = (2 ^ 8) ^ 256 by rw [← pow_mul]]
      exact h2.le
    exact_mod_cast this
  have e : ((256 ^ 264 : Nat) : ℚ) = 2 ^ 2048 * 2 ^ 64 := by
    push_cast
    rw [show (256 : ℚ) = 2 ^ 8 by norm_num, ← pow_mul, ← pow_add]
  rw [e, div_le_div_iff₀ (by positivity) (by positivity)]
  have h64 : (4 : ℚ) * (2 ^ 2048 * 2 ^ 64) = 2 ^ 2048 * 2 ^ 66 := by
    rw [show (2 : ℚ) ^ 66 = 4 * 2 ^ 64 by norm_num]
    ring
  rw [h64, one_mul]
  exact mul_le_mul_of_nonneg_right h (by positivity)

/-- 264 uniform bytes modulo `N`. -/
theorem bytes_close {N : Nat} (h0 : 0 < N) (h2 : N < 256 ^ 256) (f : Res Bytes → ℚ) (hf : Test f) :
    |E (fun b : Block 264 => f (.ok (msg (beNat (toBytes b) % N)))) - E (fun x : Fin N => f (.ok (msg x)))| ≤ 1 / 2 ^ 66 := by
  rw [E_number 264 (fun x => f (.ok (msg (x % N)))), E_fin N (fun x => f (.ok (msg x)))]
  have hM : (0 : Nat) < 256 ^ 264 := Nat.pow_pos (by norm_num)
  exact le_trans (mod_close h0 hM (f := fun x => f (.ok (msg x))) fun _ => hf _) (le_trans (dist_le h0 hM) (small h2))

/-- A generator whose calls for 264 bytes give the strings `b`, and whose other calls are those of `g`. -/
def drawn (g : Rng) {n : Nat} (b : Fin n → Block 264) : Rng := fun i m =>
  if h : i < n ∧ m = 264 then .ok (toBytes (b ⟨i, h.1⟩)) else g i m

theorem drawn_total {g : Rng} (hg : Total g) {n : Nat} (b : Fin n → Block 264) : Total (drawn g b) := by
  intro i m
  unfold drawn
  by_cases h : i < n ∧ m = 264
  · rw [dif_pos h]
    exact ⟨_, rfl, by rw [toBytes_length, h.2]⟩
  · rw [dif_neg h]
    exact hg i m

theorem drawn_num (g : Rng) {n : Nat} (b : Fin n → Block 264) (i : Fin n) : nums (drawn g b) i 264 = beNat (toBytes (b i)) := by
  unfold nums drawn
  rw [dif_pos ⟨i.2, rfl⟩]

/-- **C92**: `n` calls of `sample`, when the generator gives uniform bytes, are within `n / 2 ^ 66` of `n` independent uniform messages. -/
theorem c92_sample {g : Rng} (hg : Total g) {c : Ctx} (h : Good c) (h0 : 0 < c.N.mag) (h2 : c.N.mag < 256 ^ 256) (n : Nat)
    (D : (Fin n → Res Bytes) → ℚ) (hD : Test D) :
    |E (fun b : Fin n → Block 264 => D fun i => sample (drawn g b) c i)
      - E (fun x : Fin n → Fin c.N.mag => D fun i => .ok (beBytes 256 (x i)))| ≤ n / 2 ^ 66 := by
  have hne : Nonempty (Fin c.N.mag) := ⟨⟨0, h0⟩⟩
  have hy := hybrid (u := fun b : Block 264 => (.ok (msg (beNat (toBytes b) % c.N.mag)) : Res Bytes))
    (v := fun x : Fin c.N.mag => (.ok (msg x) : Res Bytes)) (bytes_close h0 h2) n D hD
  rw [mul_one_div] at hy
  have e : (fun b : Fin n → Block 264 => D fun i => sample (drawn g b) c i) =
      fun b => D fun i => .ok (msg (beNat (toBytes (b i)) % c.N.mag)) := by
    funext b
    congr 1
    funext i
    rw [sample_eq (drawn_total hg b) h h0 h2, drawn_num]
  rw [e]
  exact hy

/-- **C92**: the distance of one sample from a uniform message is exactly `r (N - r) / (256 ^ 264 N)`, with `r = 256 ^ 264 % N`: the test that
asks whether the number of the message is below `r` sees it. -/
theorem c92_sample_exact {g : Rng} (hg : Total g) {c : Ctx} (h : Good c) (h0 : 0 < c.N.mag) (h2 : c.N.mag < 256 ^ 256) :
    E (fun b : Fin 1 → Block 264 => if sample (drawn g b) c 0 ∈ (List.range (256 ^ 264 % c.N.mag)).map fun x => Res.ok (beBytes 256 x) then (1 : ℚ) else 0)
      - E (fun x : Fin c.N.mag => if (x : Nat) < 256 ^ 264 % c.N.mag then (1 : ℚ) else 0)
      = (256 ^ 264 % c.N.mag : Nat) * (c.N.mag - (256 ^ 264 % c.N.mag : Nat)) / (256 ^ 264 * c.N.mag) := by
  have hM : (0 : Nat) < 256 ^ 264 := Nat.pow_pos (by norm_num)
  have hr := Nat.mod_lt (256 ^ 264) h0
  have e1 : (fun b : Fin 1 → Block 264 => if sample (drawn g b) c 0 ∈ (List.range (256 ^ 264 % c.N.mag)).map (fun x => Res.ok (beBytes 256 x))
        then (1 : ℚ) else 0)
      = fun b => low (256 ^ 264 % c.N.mag) (beNat (toBytes (b 0)) % c.N.mag) := by
    funext b
    have hs := sample_eq (drawn_total hg b) h h0 h2 0
    rw [show nums (drawn g b) 0 264 = _ from drawn_num g b 0] at hs
    have hlt := Nat.mod_lt (beNat (toBytes (b 0))) h0
    rw [hs]
    unfold low
    refine if_congr ?_ rfl rfl
    rw [List.mem_map]
    constructor
    · rintro ⟨x, hx, hxe⟩
      rw [List.mem_range] at hx
      have := congrArg beNat (Res.ok.inj hxe)
      unfold msg at this
      rw [beNat_beBytes_of_lt (by omega), beNat_beBytes_of_lt (by omega)] at this
      omega
    · intro hx
      exact ⟨_, List.mem_range.2 hx, rfl⟩
  have e2 := E_equiv (Equiv.funUnique (Fin 1) (Block 264)) (fun b => low (256 ^ 264 % c.N.mag) (beNat (toBytes b) % c.N.mag))
  rw [e1]
  have e3 : E (fun b : Fin 1 → Block 264 => low (256 ^ 264 % c.N.mag) (beNat (toBytes (b 0)) % c.N.mag))
      = flat (256 ^ 264) (fun x => low (256 ^ 264 % c.N.mag) (x % c.N.mag)) := by
    rw [← E_number 264 (fun x => low (256 ^ 264 % c.N.mag) (x % c.N.mag)), ← e2]
    rfl
  rw [e3, show E (fun x : Fin c.N.mag => if (x : Nat) < 256 ^ 264 % c.N.mag then (1 : ℚ) else 0) = _ from E_fin c.N.mag (low (256 ^ 264 % c.N.mag)),
    mod_far h0 hM]
  push_cast
  rfl

/-- `generate(prf, seed)`, tdp_impl_mbedtls.cpp 276-323, with the PRF object of key `k`. -/
def generateKey (H : Bytes → Bytes) (junk : Nat → UInt8) (fuel : Nat) (c : Ctx) (k : Bytes) (seed : Bytes) : Option (Res Bytes) :=
  (Mac.prfString H junk (some k) 264 fuel seed).map fun r => r >>= generate c

/-- **C92**: an attack that calls `generate` at `q` seeds of its choice, with a PRF of uniform key, is within `q / 2 ^ 66` of what it does on
independent uniform messages, and the advantage that the attack on the PRF has that computes `generate` from the answers. -/
theorem c92_generate {H : Bytes → Bytes} (hH : ∀ m, (H m).length = 64) (junk : Nat → UInt8) {fuel : Nat} (hf : 1024 ≤ fuel)
    {c : Ctx} (h : Good c) (h0 : 0 < c.N.mag) (h2 : c.N.mag < 256 ^ 256) {q : Nat} {A : Att Bytes (Option (Res Bytes))} (hA : AtMost q A) :
    |E (fun k : Block 32 => play (generateKey H junk fuel c (toBytes k)) A)
      - fresh (fun x : Fin c.N.mag => some (.ok (beBytes 256 x))) [] A|
      ≤ advPrf (m := 32) (fun k s => Mac.prfSpec H k s 264) 264 (through (fun rnd => some (generate c rnd)) A) + q / 2 ^ 66 := by
  have hne : Nonempty (Fin c.N.mag) := ⟨⟨0, h0⟩⟩
  have hk : (fun k : Block 32 => play (generateKey H junk fuel c (toBytes k)) A) =
      fun k => play (fun s => (fun rnd => some (generate c rnd)) (Mac.prfSpec H (toBytes k) s 264)) A := by
    funext k
    congr 1
    funext s
    unfold generateKey Mac.prfString
    rw [Mac.c17_prf hH junk (toBytes k) s (toBytes_length k) 264 (by omega) fuel hf]
    rfl
  rw [hk, ← mul_one_div]
  refine prf_close (m := 32) (n := 264) (fun k s => Mac.prfSpec H k s 264) (f := fun rnd => some (generate c rnd))
    (v := fun x : Fin c.N.mag => some (.ok (beBytes 256 x))) (by positivity) (fun t ht => ?_) hA
  have e : (fun b : Block 264 => t ((fun rnd => some (generate c rnd)) (toBytes b))) =
      fun b => t (some (.ok (msg (beNat (toBytes b) % c.N.mag)))) := by
    funext b
    show t (some (generate c (toBytes b))) = _
    rw [generate_eq h h0 h2 (toBytes_length b)]
  rw [e]
  exact bytes_close h0 h2 (fun y => t (some y)) fun y => ht _

/-- **C93**: the same for HMAC in the place of the PRF, which is asked five times for each message. -/
theorem c93_generate {H : Bytes → Bytes} (hH : ∀ m, (H m).length = 64) (junk : Nat → UInt8) {fuel : Nat} (hf : 1024 ≤ fuel)
    {c : Ctx} (h : Good c) (h0 : 0 < c.N.mag) (h2 : c.N.mag < 256 ^ 256) {q : Nat} {A : Att Bytes (Option (Res Bytes))} (hA : AtMost q A) :
    |E (fun k : Block 32 => play (generateKey H junk fuel c (toBytes k)) A)
      - fresh (fun x : Fin c.N.mag => some (.ok (beBytes 256 x))) [] A|
      ≤ advPrf (m := 32) (Mac.HMAC H) 64 (expand (fun m => (List.range 5).map fun i => m ++ [UInt8.ofNat i]) 264
          (through (fun rnd => some (generate c rnd)) A)) + q / 2 ^ 66 := by
  have := c92_generate hH junk hf h h0 h2 hA
  rwa [Mac.Game.c93_advantage H (by decide)] at this

/-! Examples: an imported key, and an attack that asks for two seeds and compares the messages. -/

def compare : Att Bytes (Option (Res Bytes)) := .ask [1] fun x => .ask [2] fun y => .done (x == y)

theorem compare_two : AtMost 2 compare := .ask fun _ => .ask fun _ => .done _

theorem exPub_size {c : Ctx} (h : abs c = { exKey with priv := none }) : 0 < c.N.mag ∧ c.N.mag < 256 ^ 256 := by
  have e : c.N.mag = exKey.N := congrArg Tdp.Rsa.N h
  rw [e]
  exact ⟨by decide +kernel, exKey_tdp.size⟩

example : ∃ c, importPub exElems.n exElems.e = .ok c ∧ ∀ (n : Nat) (D : (Fin n → Res Bytes) → ℚ), Test D →
    |E (fun b : Fin n → Block 264 => D fun i => sample (drawn (constRng 2) b) c i)
      - E (fun x : Fin n → Fin c.N.mag => D fun i => .ok (beBytes 256 (x i)))| ≤ n / 2 ^ 66 := by
  obtain ⟨c, c1, c2, c3⟩ := exPub
  exact ⟨c, c1, fun n D hD => c92_sample (total_const 2) c2.good (exPub_size c3).1 (exPub_size c3).2 n D hD⟩

example : ∃ c, importPub exElems.n exElems.e = .ok c ∧
    |E (fun k : Block 32 => play (generateKey Mac.toyH (fun _ => 3) 1024 c (toBytes k)) compare)
      - fresh (fun x : Fin c.N.mag => some (.ok (beBytes 256 x))) [] compare|
      ≤ advPrf (m := 32) (fun k s => Mac.prfSpec Mac.toyH k s 264) 264 (through (fun rnd => some (generate c rnd)) compare) + 2 / 2 ^ 66 := by
  obtain ⟨c, c1, c2, c3⟩ := exPub
  exact ⟨c, c1, c92_generate Mac.toyH_length (fun _ => 3) le_rfl c2.good (exPub_size c3).1 (exPub_size c3).2 compare_two⟩

example : ∃ c, importPub exElems.n exElems.e = .ok c ∧
    |E (fun k : Block 32 => play (generateKey Mac.toyH (fun _ => 3) 1024 c (toBytes k)) compare)
      - fresh (fun x : Fin c.N.mag => some (.ok (beBytes 256 x))) [] compare|
      ≤ advPrf (m := 32) (Mac.HMAC Mac.toyH) 64 (expand (fun m => (List.range 5).map fun i => m ++ [UInt8.ofNat i]) 264
          (through (fun rnd => some (generate c rnd)) compare)) + 2 / 2 ^ 66 := by
  obtain ⟨c, c1, c2, c3⟩ := exPub
  exact ⟨c, c1, c93_generate Mac.toyH_length (fun _ => 3) le_rfl c2.good (exPub_size c3).1 (exPub_size c3).2 compare_two⟩

end Verif.Rsa
