import Verif.Tdp.Example
import Verif.Mac.Props
import Mathlib.Logic.Function.Iterate

/-!
# The RSA trapdoor permutation: theorems (C37 to C41)
-/

namespace Verif.Tdp

open Verif

/-! ## Specification -/

/-- The key `k` of a `TdpInverse` object: an RSA key with a 2048-bit modulus (256 bytes). -/
structure TdpKey (k : Rsa) (s : Priv) : Prop where
  priv : k.priv = some s
  key : RsaKey k.N k.E s
  len : k.len = 256
  size : k.N < 256 ^ 256

/-- `m` encodes a number below the modulus on 256 bytes. -/
def IsMsg (k : Rsa) (m : Bytes) : Prop := m.length = 256 ∧ beNat m < k.N

/-- The blinding values of the context, if any, cancel. -/
def BlindOk (k : Rsa) : Prop := ∀ vi vf, k.blind = some (vi, vf) → vi * vf ^ k.E ≡ 1 [MOD k.N]

/-- If there are no blinding values yet, one of the next eleven random numbers is prime to N. -/
def CanBlind (rng : Nat → Nat → Nat) (k : Rsa) (i : Nat) : Prop :=
  k.blind = none → ∃ j, j < 11 ∧ Nat.gcd (rng (i + j) (k.len - 1)) k.N = 1

theorem beBytes_length (n x : Nat) : (beBytes n x).length = n := by
  rw [beBytes, List.length_reverse]
  induction n generalizing x with
  | zero => rfl
  | succ n ih => simp [leBytes, ih]

theorem isMsg_beBytes {k : Rsa} (hs : k.N < 256 ^ 256) {x : Nat} (hx : x < k.N) : IsMsg k (beBytes 256 x) :=
  ⟨beBytes_length _ _, by rw [beNat_beBytes_of_lt (lt_trans hx hs)]; exact hx⟩

theorem beBytes_beNat' {m : Bytes} (h : m.length = 256) : beBytes 256 (beNat m) = m := by
  have := beBytes_beNat m
  rwa [h] at this

theorem beNat_inj {a b : Bytes} (ha : a.length = 256) (hb : b.length = 256) (h : beNat a = beNat b) : a = b := by
  rw [← beBytes_beNat' ha, ← beBytes_beNat' hb, h]

/-! ## Evaluation -/

theorem writeIgnored_ok {x : Nat} (h : x < 256 ^ 256) : writeIgnored x = .ok (beBytes 256 x) := by
  unfold writeIgnored msgSize
  rw [mpiWrite_some h]

theorem evalArray_eq {k : Rsa} (hl : k.len = 256) (hs : k.N < 256 ^ 256) (ho : k.N % 2 = 1) (m : Bytes) :
    evalArray k m = .ok (beBytes 256 (beNat m ^ k.E % k.N)) := by
  have hN : 0 < k.N := by omega
  unfold evalArray
  rw [if_neg (by rw [hl]; decide), mpiMod_nat hN]
  simp only [orThrow, Res.bind_ok]
  rw [mpiExpMod_odd ho]
  simp only [Res.bind_ok]
  rw [writeIgnored_ok (lt_trans (Nat.mod_lt _ hN) hs)]
  rw [((Nat.mod_modEq (beNat m) k.N).pow k.E : _ % _ = _ % _)]

theorem evalString_eq {k : Rsa} (hl : k.len = 256) (hs : k.N < 256 ^ 256) (ho : k.N % 2 = 1) {m : Bytes} (hm : m.length = 256) :
    evalString k m = .ok (beBytes 256 (beNat m ^ k.E % k.N)) := by
  unfold evalString copyIn
  rw [if_neg (by rw [hl, hm]; decide), if_neg (by rw [hm]; decide)]
  simp only [Res.bind_ok]
  rw [evalArray_eq hl hs ho, List.take_of_length_le (by rw [hm]; decide)]

/-- **C37**: evaluation is the RSA function: it maps every 256-byte string to the encoding of its value to the power E modulo N, which is
a message; the string and the array version agree. -/
theorem c37_eval {k : Rsa} {s : Priv} (h : TdpKey k s) {m : Bytes} (hm : m.length = 256) :
    ∃ c, evalString k m = .ok c ∧ evalArray k m = .ok c ∧ IsMsg k c ∧ beNat c = beNat m ^ k.E % k.N := by
  have hlt : beNat m ^ k.E % k.N < k.N := Nat.mod_lt _ h.key.Npos
  refine ⟨_, evalString_eq h.len h.size h.key.Nodd hm, evalArray_eq h.len h.size h.key.Nodd m, isMsg_beBytes h.size hlt, ?_⟩
  rw [beNat_beBytes_of_lt (lt_trans hlt h.size)]

/-! ## Blinding -/

theorem drawVf_spec (rng : Nat → Nat → Nat) {N : Nat} (hN : 0 < N) (len : Nat) (t i vi vf : Nat)
    (h : ∃ j, j < t ∧ Nat.gcd (rng (i + j) (len - 1)) N = 1) :
    ∃ vf' i', drawVf rng N len t i vi vf = (true, 1, vf', i') ∧ Nat.gcd vf' N = 1 := by
  induction t generalizing i vi vf with
  | zero => obtain ⟨j, hj, -⟩ := h; omega
  | succ t ih =>
    rw [drawVf, mpiGcd_pos hN]
    by_cases h1 : Nat.gcd (rng i (len - 1)) N = 1
    · rw [if_pos h1]
      exact ⟨_, _, by rw [h1], h1⟩
    · rw [if_neg h1]
      apply ih
      obtain ⟨j, hj, hg⟩ := h
      rcases j with _ | j
      · exact absurd hg h1
      · exact ⟨j, by omega, by rw [show i + 1 + j = i + (j + 1) by omega]; exact hg⟩

theorem prepBlind_spec {rng : Nat → Nat → Nat} {k : Rsa} {i : Nat} (ho : k.N % 2 = 1) (h1 : 1 < k.N) (hb : BlindOk k) (hc : CanBlind rng k i) :
    ∃ vi vf i', prepBlind rng k i = (true, (vi, vf), i') ∧ vi * vf ^ k.E ≡ 1 [MOD k.N] := by
  unfold prepBlind
  rcases hbl : k.blind with _ | ⟨vi, vf⟩
  · obtain ⟨vf', i', hd, hg⟩ := drawVf_spec rng (by omega : 0 < k.N) k.len 11 i 0 0 (hc hbl)
    obtain ⟨inv, hi, hlt, hm⟩ := mpiInv_spec h1 hg
    simp only
    rw [hd]
    simp only [hi]
    rw [mpiExpMod_odd ho]
    refine ⟨_, _, _, rfl, ?_⟩
    refine ((Nat.mod_modEq _ _).mul_right _).trans ?_
    rw [← mul_pow]
    have : inv * vf' ≡ 1 [MOD k.N] := by
      unfold Nat.ModEq
      rw [mul_comm, hm, Nat.mod_eq_of_lt h1]
    simpa using this.pow k.E
  · have hv := hb vi vf hbl
    simp only
    rw [mpiMod_nat (by omega), mpiMod_nat (by omega)]
    refine ⟨_, _, _, rfl, ?_⟩
    refine ((Nat.mod_modEq _ _).mul ((Nat.mod_modEq _ _).pow _)).trans ?_
    have e : vi * vi * (vf * vf) ^ k.E = (vi * vf ^ k.E) * (vi * vf ^ k.E) := by rw [mul_pow]; ring
    rw [e]
    simpa using hv.mul hv

theorem TdpKey.one_lt {k : Rsa} {s : Priv} (h : TdpKey k s) : 1 < k.N := by
  rw [h.key.mod]
  have := h.key.P3
  have := h.key.Q3
  nlinarith

theorem invertBuf_of {rng : Nat → Nat → Nat} {k : Rsa} {s : Priv} {i vi vf i' x : Nat} (h : TdpKey k s) {y : Bytes} (hy : IsMsg k y)
    (hp : prepBlind rng k i = (true, (vi, vf), i')) (hx : crtPrivate k.N s vi vf (beNat y) (rng i' 28) (rng (i' + 1) 28) = some x)
    (hlt : x < 256 ^ 256) : invertBuf rng k i y = (.ok (beBytes 256 x), { k with blind := some (vi, vf) }, i' + 2) := by
  unfold invertBuf rsaPrivate
  simp only [h.priv]
  rw [if_neg (by simp), if_neg (by rw [h.len, hy.1]; omega), List.take_of_length_le (by rw [h.len, hy.1]),
    if_neg (by have := hy.2; omega), hp]
  simp only
  rw [hx]
  simp only [h.len]
  rw [mpiWrite_some hlt]
  simp only
  rw [if_pos (by rw [beBytes_length]; rfl)]

theorem invertBuf_spec {rng : Nat → Nat → Nat} {k : Rsa} {s : Priv} {i : Nat} (h : TdpKey k s) (hb : BlindOk k) (hc : CanBlind rng k i)
    {y : Bytes} (hy : IsMsg k y) :
    ∃ x b i', invertBuf rng k i y = (.ok x, { k with blind := some b }, i') ∧ IsMsg k x ∧
      beNat x ^ k.E ≡ beNat y [MOD k.N] ∧ BlindOk { k with blind := some b } := by
  obtain ⟨vi, vf, i', hp, hv⟩ := prepBlind_spec h.key.Nodd h.one_lt hb hc
  obtain ⟨x, hx, hlt, hpow⟩ := crtPrivate_spec h.key hv (beNat y) (rng i' 28) (rng (i' + 1) 28)
  refine ⟨beBytes 256 x, (vi, vf), i' + 2, ?_, isMsg_beBytes h.size hlt, ?_, ?_⟩
  · exact invertBuf_of h hy hp hx (lt_trans hlt h.size)
  · rw [beNat_beBytes_of_lt (lt_trans hlt h.size)]; exact hpow
  · intro a b hab
    simp only [Option.some.injEq, Prod.mk.injEq] at hab
    obtain ⟨rfl, rfl⟩ := hab
    exact hv

theorem invertString_eq (rng : Nat → Nat → Nat) (k : Rsa) (i : Nat) {y : Bytes} (hy : y.length = 256) :
    invertString rng k i y = invertBuf rng k i y := by
  unfold invertString
  rw [if_neg (by rw [hy]; decide)]

theorem TdpKey.withBlind {k : Rsa} {s : Priv} (h : TdpKey k s) (b : Option (Nat × Nat)) : TdpKey { k with blind := b } s :=
  ⟨h.priv, h.key, h.len, h.size⟩

theorem canBlind_of_some (rng : Nat → Nat → Nat) (k : Rsa) (b : Nat × Nat) (i : Nat) : CanBlind rng { k with blind := some b } i := by
  intro h; simp at h

/-- Two messages whose powers are congruent are equal. -/
theorem TdpKey.msg_eq {k : Rsa} {s : Priv} (h : TdpKey k s) {a b : Bytes} (ha : IsMsg k a) (hb : IsMsg k b)
    (hab : beNat a ^ k.E ≡ beNat b ^ k.E [MOD k.N]) : a = b := by
  have := h.key.inj hab
  unfold Nat.ModEq at this
  rw [Nat.mod_eq_of_lt ha.2, Nat.mod_eq_of_lt hb.2] at this
  exact beNat_inj ha.1 hb.1 this

/-! ## C37 -/

/-- **C37**: `invert (eval x) = x` for every message `x` (string versions; the array versions return the same). -/
theorem c37_invert_eval {rng : Nat → Nat → Nat} {k : Rsa} {s : Priv} {i : Nat} (h : TdpKey k s) (hb : BlindOk k)
    (hc : CanBlind rng k i) {x : Bytes} (hx : IsMsg k x) :
    ∃ c, evalString k x = .ok c ∧ IsMsg k c ∧ (invertString rng k i c).1 = .ok x ∧ (invertBuf rng k i c).1 = .ok x := by
  obtain ⟨c, hc1, -, hcm, hcv⟩ := c37_eval h hx.1
  obtain ⟨x', b, i', hi, hxm, hpow, -⟩ := invertBuf_spec h hb hc hcm
  have : x' = x := h.msg_eq hxm hx (hpow.trans (by rw [hcv]; exact Nat.mod_modEq _ _))
  subst this
  exact ⟨c, hc1, hcm, by rw [invertString_eq rng k i hcm.1, hi], by rw [hi]⟩

/-- **C37**: `eval (invert y) = y` for every message `y`. -/
theorem c37_eval_invert {rng : Nat → Nat → Nat} {k : Rsa} {s : Priv} {i : Nat} (h : TdpKey k s) (hb : BlindOk k)
    (hc : CanBlind rng k i) {y : Bytes} (hy : IsMsg k y) :
    ∃ x, (invertString rng k i y).1 = .ok x ∧ IsMsg k x ∧ evalString k x = .ok y := by
  obtain ⟨x, b, i', hi, hxm, hpow, -⟩ := invertBuf_spec h hb hc hy
  refine ⟨x, by rw [invertString_eq rng k i hy.1, hi], hxm, ?_⟩
  rw [evalString_eq h.len h.size h.key.Nodd hxm.1, hpow, Nat.mod_eq_of_lt hy.2, beBytes_beNat' hy.1]

/-- **C37**: evaluation is a bijection on messages. -/
theorem c37_bijection {k : Rsa} {s : Priv} (h : TdpKey k s) {y : Bytes} (hy : IsMsg k y) :
    ∃ x, (IsMsg k x ∧ evalString k x = .ok y) ∧ ∀ x', IsMsg k x' ∧ evalString k x' = .ok y → x' = x := by
  have hb : BlindOk { k with blind := none } := by intro vi vf hh; simp at hh
  have hc : CanBlind (fun _ _ => 1) { k with blind := none } 0 := fun _ => ⟨0, by omega, by simp⟩
  obtain ⟨x, -, hxm, he⟩ := c37_eval_invert (h.withBlind none) hb hc hy
  refine ⟨x, ⟨hxm, he⟩, ?_⟩
  rintro x' ⟨hx', he'⟩
  apply h.msg_eq hx' hxm
  have e1 : evalString k x = evalString k x' := by rw [he']; exact he
  rw [evalString_eq h.len h.size h.key.Nodd hxm.1, evalString_eq h.len h.size h.key.Nodd hx'.1] at e1
  have e2 := Res.ok.inj e1
  have lt : ∀ z, z % k.N < 256 ^ 256 := fun z => lt_trans (Nat.mod_lt z h.key.Npos) h.size
  have e3 := congrArg beNat e2
  rw [beNat_beBytes_of_lt (lt _), beNat_beBytes_of_lt (lt _)] at e3
  exact e3.symm

/-- Successive calls of `invert` on one object: the results. -/
def invertAll (rng : Nat → Nat → Nat) : Rsa → Nat → List Bytes → List (Res Bytes)
  | _, _, [] => []
  | k, i, y :: ys => (invertString rng k i y).1 :: invertAll rng (invertString rng k i y).2.1 (invertString rng k i y).2.2 ys

/-- **C37**: all calls in a sequence of any length on one object (whose blinding values change with every call) give the inverses,
provided the first call finds a blinding value. -/
theorem c37_sequence {rng : Nat → Nat → Nat} {k : Rsa} {s : Priv} {i : Nat} (h : TdpKey k s) (hb : BlindOk k) (hc : CanBlind rng k i)
    (ys : List Bytes) (hys : ∀ y ∈ ys, IsMsg k y) :
    ∀ j (hj : j < ys.length), ∃ x, (invertAll rng k i ys)[j]? = some (.ok x) ∧ IsMsg k x ∧ evalString k x = .ok ys[j] := by
  induction ys generalizing k i with
  | nil => intro j hj; simp at hj
  | cons y ys ih =>
    have hy := hys y List.mem_cons_self
    obtain ⟨x, b, i', hi, hxm, hpow, hb'⟩ := invertBuf_spec h hb hc hy
    intro j hj
    rw [invertAll, invertString_eq rng k i hy.1, hi]
    rcases j with _ | j
    · refine ⟨x, rfl, hxm, ?_⟩
      rw [evalString_eq h.len h.size h.key.Nodd hxm.1, hpow, Nat.mod_eq_of_lt hy.2, beBytes_beNat' hy.1]
      rfl
    · obtain ⟨x', h1, h2, h3⟩ := ih (h.withBlind (some b)) hb' (canBlind_of_some rng k b i')
        (fun z hz => hys z (List.mem_cons_of_mem _ hz)) j (by simpa using hj)
      exact ⟨x', by simpa using h1, h2, h3⟩

/-- **C37**: an input that is not below the modulus is refused, and the object is left unchanged. -/
theorem c37_rejects_large (rng : Nat → Nat → Nat) {k : Rsa} {s : Priv} (h : TdpKey k s) (i : Nat) {y : Bytes} (hy : y.length = 256)
    (hl : k.N ≤ beNat y) : invertString rng k i y = (.exc .invalidArgument, k, i) := by
  rw [invertString_eq rng k i hy]
  unfold invertBuf rsaPrivate
  simp only [h.priv]
  rw [if_neg (by simp), if_neg (by rw [h.len, hy]; omega), List.take_of_length_le (by rw [h.len, hy]), if_pos hl]

theorem drawVf_zero {N : Nat} (hN : 1 < N) (len t i vi vf : Nat) :
    drawVf (fun _ _ => 0) N len (t + 1) i vi vf = (false, N, 0, i + (t + 1)) := by
  induction t generalizing i vi vf with
  | zero =>
    rw [drawVf, mpiGcd_pos (by omega), Nat.gcd_zero_left, if_neg (by omega), drawVf]
  | succ t ih =>
    rw [drawVf, mpiGcd_pos (by omega), Nat.gcd_zero_left, if_neg (by omega), ih]
    rw [show i + 1 + (t + 1) = i + (t + 1 + 1) by omega]

/-- C37 does not hold after a failure of the random source: when the first call of `invert` finds no blinding value (the source returned
zero eleven times) it throws, but it leaves unusable blinding values in the key, and the next call succeeds with the wrong answer 0. -/
theorem c37_after_rng_failure_false {k : Rsa} {s : Priv} (h : TdpKey k s) (hbl : k.blind = none) {y : Bytes} (hy : IsMsg k y) :
    ∃ k' i', invertString (fun _ _ => 0) k 0 y = (.exc .invalidArgument, k', i') ∧
      ∀ rng j, (invertString rng k' j y).1 = .ok (beBytes 256 0) := by
  have hN := h.key.Npos
  have hp1 : prepBlind (fun _ _ => 0) k 0 = (false, (k.N, 0), 11) := by
    unfold prepBlind
    simp only [hbl]
    rw [drawVf_zero h.one_lt k.len 10 0 0 0]
  refine ⟨{ k with blind := some (k.N, 0) }, 11, ?_, ?_⟩
  · rw [invertString_eq _ k 0 hy.1]
    unfold invertBuf rsaPrivate
    simp only [h.priv]
    rw [if_neg (by simp), if_neg (by rw [h.len, hy.1]; omega), List.take_of_length_le (by rw [h.len, hy.1]),
      if_neg (by have := hy.2; omega), hp1]
  · intro rng j
    have hp2 : prepBlind rng { k with blind := some (k.N, 0) } j = (true, (0, 0), j) := by
      unfold prepBlind
      simp only
      rw [mpiMod_nat hN, mpiMod_nat hN]
      simp
    have hcrt : ∀ a b, crtPrivate k.N s 0 0 (beNat y) a b = some 0 := by
      intro a b
      unfold crtPrivate
      rw [mpiMod_nat hN]
      simp only [Option.bind_eq_bind, Option.bind_some]
      rw [mpiExpMod_odd h.key.oddP, mpiExpMod_odd h.key.oddQ]
      simp only [Option.bind_some]
      rw [mpiMod_pos h.key.primeP.pos]
      simp only [Option.bind_some]
      rw [mpiMod_nat hN]
      simp
    rw [invertString_eq _ _ j hy.1, invertBuf_of (k := { k with blind := some (k.N, 0) }) (h.withBlind (some (k.N, 0))) hy hp2 (hcrt _ _) (by norm_num)]

theorem exKey_tdp : TdpKey exKey exPriv := ⟨rfl, exKey_rsa, rfl, by decide +kernel⟩

/-- A random source for the examples. -/
def exRng (i n : Nat) : Nat := (i + 3) ^ 5 % 256 ^ n

/-- An example message. -/
def exMsg : Bytes := beBytes 256 (3 ^ 1000)

theorem exMsg_msg : IsMsg exKey exMsg := isMsg_beBytes exKey_tdp.size (by decide +kernel)

theorem exBlind : BlindOk exKey := by intro vi vf h; simp [exKey] at h

theorem exCan : CanBlind exRng exKey 0 := fun _ => ⟨0, by decide, by decide +kernel⟩

example : ∃ c, evalString exKey exMsg = .ok c ∧ IsMsg exKey c ∧ (invertString exRng exKey 0 c).1 = .ok exMsg ∧
    (invertBuf exRng exKey 0 c).1 = .ok exMsg := c37_invert_eval exKey_tdp exBlind exCan exMsg_msg
example := c37_eval_invert exKey_tdp exBlind exCan exMsg_msg
example := c37_bijection exKey_tdp exMsg_msg
example := c37_sequence exKey_tdp exBlind exCan [exMsg, exMsg] (List.forall_mem_cons.2 ⟨exMsg_msg, List.forall_mem_cons.2 ⟨exMsg_msg, fun _ h => absurd h List.not_mem_nil⟩⟩)
example := c37_rejects_large exRng exKey_tdp 0 (y := List.replicate 256 255) List.length_replicate (by decide +kernel)
example := c37_after_rng_failure_false exKey_tdp rfl exMsg_msg

/-! ## Keys made by the code -/

theorem genLoop_spec {prime : Nat → Nat} {nbits E fuel i P Q : Nat} (h : genLoop prime nbits E fuel i = some (P, Q)) :
    (∃ a, P = prime a) ∧ (∃ b, Q = prime b) ∧ P ≠ Q ∧ bitlen (P * Q) = nbits ∧ mpiGcd E ((P - 1) * (Q - 1)) = 1 := by
  induction fuel generalizing i with
  | zero => simp [genLoop] at h
  | succ fuel ih =>
    rw [genLoop] at h
    simp only at h
    by_cases h1 : prime i = prime (i + 1)
    · rw [if_pos h1] at h; exact ih h
    · rw [if_neg h1] at h
      by_cases h2 : bitlen (prime i * prime (i + 1)) ≠ nbits
      · rw [if_pos h2] at h; exact ih h
      · rw [if_neg h2] at h
        by_cases h4 : prime i < prime (i + 1)
        · rw [if_pos h4, if_pos h4] at h
          by_cases h3 : mpiGcd E ((prime (i + 1) - 1) * (prime i - 1)) ≠ 1
          · rw [if_pos h3] at h; exact ih h
          · rw [if_neg h3] at h
            simp only [Option.some.injEq, Prod.mk.injEq] at h
            obtain ⟨rfl, rfl⟩ := h
            exact ⟨⟨_, rfl⟩, ⟨_, rfl⟩, fun e => h1 e.symm, by rw [mul_comm]; exact not_not.1 h2, not_not.1 h3⟩
        · rw [if_neg h4, if_neg h4] at h
          by_cases h3 : mpiGcd E ((prime i - 1) * (prime (i + 1) - 1)) ≠ 1
          · rw [if_pos h3] at h; exact ih h
          · rw [if_neg h3] at h
            simp only [Option.some.injEq, Prod.mk.injEq] at h
            obtain ⟨rfl, rfl⟩ := h
            exact ⟨⟨_, rfl⟩, ⟨_, rfl⟩, h1, not_not.1 h2, not_not.1 h3⟩

/-- **C37**: when the prime generator returns odd primes, every key made by the default constructor (2048 bits, exponent 65537) is an RSA key
of the right size, without blinding values; so all the theorems about such keys apply to it. -/
theorem c37_generated {prime : Nat → Nat} (hp : ∀ i, (prime i).Prime) (hodd : ∀ i, prime i % 2 = 1) {fuel : Nat} {k : Rsa}
    (h : genKey prime 2048 65537 fuel = some (some k)) :
    ∃ s, TdpKey k s ∧ BlindOk k ∧ k.blind = none ∧ k.E = 65537 ∧ checkPub k = true := by
  unfold genKey at h
  rw [if_neg (by decide)] at h
  rcases hg : genLoop prime 2048 65537 fuel 0 with _ | ⟨P, Q⟩
  · rw [hg] at h; simp at h
  rw [hg] at h
  obtain ⟨⟨a, rfl⟩, ⟨b, rfl⟩, hne, hbits, hgcd⟩ := genLoop_spec hg
  have hP3 : 3 ≤ prime a := by have := (hp a).two_le; have := hodd a; omega
  have hQ3 : 3 ≤ prime b := by have := (hp b).two_le; have := hodd b; omega
  have hH : 1 < (prime a - 1) * (prime b - 1) := by
    have h1 : 2 ≤ prime a - 1 := by omega
    have h2 : 2 ≤ prime b - 1 := by omega
    nlinarith
  rw [mpiGcd_pos (by omega)] at hgcd
  obtain ⟨D, hD, hDlt, hDe⟩ := mpiInv_spec hH hgcd
  have hcop : Nat.gcd (prime b) (prime a) = 1 := (Nat.coprime_primes (hp b) (hp a)).2 hne.symm
  obtain ⟨QP, hQP, hQPlt, hQPe⟩ := mpiInv_spec (by omega : 1 < prime a) hcop
  simp only [Option.map_some] at h
  rw [hD, hQP, Option.bind_eq_bind, Option.bind_some, mpiMod_nat (by omega : 0 < prime a - 1), mpiMod_nat (by omega : 0 < prime b - 1)] at h
  simp only [Option.bind_some, Option.pure_def, Option.some.injEq] at h
  have hED : 65537 * D ≡ 1 [MOD (prime a - 1) * (prime b - 1)] := by
    unfold Nat.ModEq
    rw [hDe, Nat.mod_eq_of_lt hH]
  subst h
  have hlt : prime a * prime b < 2 ^ 2048 := (bitlen_le_iff _ _).1 (by rw [hbits])
  have hge : ¬ prime a * prime b < 2 ^ 2047 := fun h => by
    have := (bitlen_le_iff (prime a * prime b) 2047).2 h
    omega
  refine ⟨_, ⟨rfl, ⟨hp a, hp b, hodd a, hodd b, hne, rfl, ?_, ?_, rfl, rfl, hQPlt, by rw [mul_comm]; exact hQPe⟩, ?_, ?_⟩, ?_, rfl, rfl, ?_⟩
  · exact hED.of_mul_right _
  · exact hED.of_mul_left _
  · show (bitlen (prime a * prime b) + 7) / 8 = 256
    rw [hbits]
  · show prime a * prime b < 256 ^ 256
    calc prime a * prime b < 2 ^ 2048 := hlt
      _ = 256 ^ 256 := by decide +kernel
  · intro vi vf hh; simp at hh
  · unfold checkPub
    simp only
    rw [hbits, if_neg, if_neg, if_neg]
    · rw [show bitlen 65537 = 17 by decide +kernel]
      rintro (h | h)
      · omega
      · have : (65537 : Nat) < 2 ^ 2047 := by decide +kernel
        omega
    · omega
    · rw [Nat.mul_mod, hodd a, hodd b]; decide

/-- **C37**: a private key accepted by the constructor from a string (which checks it with `mbedtls_rsa_check_privkey`) and whose factors
are primes is an RSA key. -/
theorem c37_imported {k : Rsa} {s : Priv} (hs : k.priv = some s) (h : checkPriv k = true) (hp : s.P.Prime) (hq : s.Q.Prime) :
    RsaKey k.N k.E s := by
  have h0 : checkPub k = true := by
    by_contra hc
    unfold checkPriv at h
    rw [if_pos (by simpa using hc)] at h
    simp at h
  unfold checkPriv at h
  rw [if_neg (by simp [h0]), hs] at h
  have e1 : ((s.P : Int) - 1).toNat = s.P - 1 := by omega
  have e2 : ((s.Q : Int) - 1).toNat = s.Q - 1 := by omega
  have hP2 := hp.two_le
  have hQ2 := hq.two_le
  simp only at h
  rw [if_neg (by omega), e1, e2] at h
  have hg2 : mpiGcd (s.P - 1) (s.Q - 1) = Nat.gcd (s.P - 1) (s.Q - 1) := mpiGcd_pos (by omega) _
  have hgpos : 0 < Nat.gcd (s.P - 1) (s.Q - 1) := Nat.gcd_pos_of_pos_left _ (by omega)
  rw [hg2, if_neg (by omega)] at h
  have hL : 0 < (s.P - 1) * (s.Q - 1) / Nat.gcd (s.P - 1) (s.Q - 1) :=
    Nat.div_pos (le_trans (Nat.gcd_le_left _ (by omega)) (Nat.le_mul_of_pos_right _ (by omega))) hgpos
  rw [mpiMod_nat hL, mpiMod_nat (by omega : 0 < s.P - 1), mpiMod_nat (by omega : 0 < s.Q - 1)] at h
  rcases hqp : mpiInv s.Q s.P with _ | QP
  · rw [hqp] at h; simp at h
  · rw [hqp] at h
    simp only [Bool.and_eq_true, decide_eq_true_eq] at h
    obtain ⟨⟨⟨⟨⟨⟨hN, hDP⟩, hDQ⟩, hQP⟩, -⟩, hI⟩, hG⟩ := h
    subst hQP
    have hcop : Nat.gcd s.Q s.P = 1 := by
      by_contra hne
      unfold mpiInv at hqp
      rw [if_neg (by omega), mpiGcd_pos (by omega), if_pos hne] at hqp
      simp at hqp
    obtain ⟨x, hx, hxlt, hxe⟩ := mpiInv_spec (by omega : 1 < s.P) hcop
    rw [hqp] at hx
    have hx' := Option.some.inj hx
    subst hx'
    have hodd : (s.P * s.Q) % 2 = 1 := by
      rw [hN]
      by_contra hne
      unfold checkPub at h0
      rw [if_pos (by left; omega)] at h0
      simp at h0
    have hlcm : (s.P - 1) * (s.Q - 1) / Nat.gcd (s.P - 1) (s.Q - 1) = Nat.lcm (s.P - 1) (s.Q - 1) := rfl
    rw [hlcm] at hI hL
    have hED : k.E * s.D ≡ 1 [MOD Nat.lcm (s.P - 1) (s.Q - 1)] := by
      unfold Nat.ModEq
      rw [mul_comm, hI]
      by_cases h1 : Nat.lcm (s.P - 1) (s.Q - 1) = 1
      · rw [h1] at hI; rw [Nat.mod_one] at hI; omega
      · rw [Nat.mod_eq_of_lt (by omega)]
    have hoP : s.P % 2 = 1 := by
      by_contra hne
      have : s.P % 2 = 0 := by omega
      rw [Nat.mul_mod, this] at hodd; simp at hodd
    have hoQ : s.Q % 2 = 1 := by
      by_contra hne
      have : s.Q % 2 = 0 := by omega
      rw [Nat.mul_mod, this] at hodd; simp at hodd
    exact ⟨hp, hq, hoP, hoQ, fun e => by rw [e, Nat.gcd_self] at hcop; omega, hN.symm,
      hED.of_dvd (Nat.dvd_lcm_left _ _), hED.of_dvd (Nat.dvd_lcm_right _ _), hDP.symm, hDQ.symm, hxlt, by rw [mul_comm]; exact hxe⟩

/-- The two primes of the example key, in turn. -/
def exPrimes (i : Nat) : Nat := if i % 2 = 0 then exP else exQ

example : ∃ k, genKey exPrimes 2048 65537 1 = some (some k) ∧ ∃ s, TdpKey k s ∧ BlindOk k ∧ k.blind = none ∧ k.E = 65537 ∧ checkPub k = true := by
  have h : (genKey exPrimes 2048 65537 1).isSome ∧ ((genKey exPrimes 2048 65537 1).getD none).isSome := by decide +kernel
  rcases hk : genKey exPrimes 2048 65537 1 with _ | (_ | k)
  · rw [hk] at h; simp at h
  · rw [hk] at h; simp at h
  · refine ⟨k, rfl, c37_generated (fun i => ?_) (fun i => ?_) hk⟩
    · unfold exPrimes; split
      · exact exP_prime
      · exact exQ_prime
    · unfold exPrimes; split <;> decide +kernel

example : RsaKey exKey.N exKey.E exPriv := c37_imported rfl (by decide +kernel) exP_prime exQ_prime

/-! ## C38 -/

/-- `n` evaluations in a row. -/
def evalN (k : Rsa) : Nat → Bytes → Res Bytes
  | 0, m => .ok m
  | n + 1, m => evalString k m >>= evalN k n

/-- `n` inversions in a row on one object. -/
def invertN (rng : Nat → Nat → Nat) : Rsa → Nat → Nat → Bytes → Res Bytes
  | _, _, 0, y => .ok y
  | k, i, n + 1, y =>
    match invertString rng k i y with
    | (.ok x, k', i') => invertN rng k' i' n x
    | (e, _, _) => e

theorem evalN_eq {k : Rsa} {s : Priv} (h : TdpKey k s) (n : Nat) {m : Bytes} (hm : m.length = 256) :
    evalN k (n + 1) m = .ok (beBytes 256 (beNat m ^ (k.E ^ (n + 1)) % k.N)) := by
  induction n generalizing m with
  | zero =>
    rw [evalN, evalString_eq h.len h.size h.key.Nodd hm, Res.bind_ok, evalN, zero_add, pow_one]
  | succ n ih =>
    rw [evalN, evalString_eq h.len h.size h.key.Nodd hm, Res.bind_ok, ih (beBytes_length _ _),
      beNat_beBytes_of_lt (lt_trans (Nat.mod_lt _ h.key.Npos) h.size)]
    congr 2
    rw [pow_succ k.E (n + 1), mul_comm, pow_mul]
    exact (Nat.mod_modEq _ _).pow _

theorem invertMult_eq {k : Rsa} {s : Priv} (h : TdpKey k s) (y : Bytes) (n : Nat) (hn : n ≠ 0) :
    ∃ x, invertMult k y n = .ok x ∧ IsMsg k x ∧ beNat x ^ (k.E ^ n) ≡ beNat y [MOD k.N] := by
  obtain ⟨x, hx, hlt, hpow⟩ := crtMult_spec h.key (beNat y) n
  refine ⟨beBytes 256 x, ?_, isMsg_beBytes h.size hlt, ?_⟩
  · unfold invertMult
    rw [if_neg hn, if_neg (by rw [h.len]; decide), h.priv]
    simp only
    rw [hx]
    simp only [orThrow, Res.bind_ok]
    unfold msgSize
    rw [mpiWrite_some (lt_trans hlt h.size)]
  · rw [beNat_beBytes_of_lt (lt_trans hlt h.size)]; exact hpow

/-- **C38**: evaluating `n` times the result of `invert_mult(y, n)` gives `y` back, for every order. -/
theorem c38_eval_back {k : Rsa} {s : Priv} (h : TdpKey k s) {y : Bytes} (hy : IsMsg k y) (n : Nat) :
    ∃ x, invertMult k y n = .ok x ∧ invertMultString k y n = .ok x ∧ IsMsg k x ∧ evalN k n x = .ok y := by
  have hs : invertMultString k y n = invertMult k y n := by
    unfold invertMultString copyIn
    rw [if_neg (by rw [hy.1]; decide), List.take_of_length_le (by rw [hy.1]; decide), Res.bind_ok]
  rw [hs]
  rcases n with _ | n
  · exact ⟨y, rfl, rfl, hy, rfl⟩
  · obtain ⟨x, hx, hm, hpow⟩ := invertMult_eq h y (n + 1) (by omega)
    refine ⟨x, hx, hx, hm, ?_⟩
    rw [evalN_eq h n hm.1, hpow, Nat.mod_eq_of_lt hy.2, beBytes_beNat' hy.1]

/-- **C38**: `invert_mult(y, n)` equals `n` calls of `invert`, for every order and every state of the random source. -/
theorem c38_iterated {rng : Nat → Nat → Nat} {k : Rsa} {s : Priv} {i : Nat} (h : TdpKey k s) (hb : BlindOk k) (hc : CanBlind rng k i)
    {y : Bytes} (hy : IsMsg k y) (n : Nat) : invertN rng k i n y = invertMult k y n := by
  have key : ∀ (n : Nat) (k : Rsa) (i : Nat) (y : Bytes), TdpKey k s → BlindOk k → CanBlind rng k i → IsMsg k y →
      ∃ x, invertN rng k i n y = .ok x ∧ IsMsg k x ∧ beNat x ^ (k.E ^ n) ≡ beNat y [MOD k.N] := by
    intro n
    induction n with
    | zero => intro k i y _ _ _ hy; exact ⟨y, rfl, hy, by simpa using Nat.ModEq.refl _⟩
    | succ n ih =>
      intro k i y h hb hc hy
      obtain ⟨x, b, i', hi, hxm, hpow, hb'⟩ := invertBuf_spec h hb hc hy
      obtain ⟨z, hz, hzm, hzp⟩ := ih { k with blind := some b } i' x (h.withBlind (some b)) hb' (canBlind_of_some rng k b i') hxm
      refine ⟨z, ?_, hzm, ?_⟩
      · rw [invertN, invertString_eq rng k i hy.1, hi]
        exact hz
      · have h1 : (beNat z ^ (k.E ^ n)) ^ k.E ≡ beNat x ^ k.E [MOD k.N] := hzp.pow k.E
        rw [← pow_mul, ← pow_succ] at h1
        exact h1.trans hpow
  obtain ⟨x, hx, hxm, hxp⟩ := key n k i y h hb hc hy
  rw [hx]
  rcases n with _ | n
  · rw [invertN] at hx; rw [← hx]; rfl
  · obtain ⟨x', hx', hm', hp'⟩ := invertMult_eq h y (n + 1) (by omega)
    rw [hx']
    have : ∀ n a b, IsMsg k a → IsMsg k b → beNat a ^ (k.E ^ n) ≡ beNat b ^ (k.E ^ n) [MOD k.N] → a = b := by
      intro n
      induction n with
      | zero =>
        intro a b ha hb hab
        rw [pow_zero, pow_one, pow_one] at hab
        unfold Nat.ModEq at hab
        rw [Nat.mod_eq_of_lt ha.2, Nat.mod_eq_of_lt hb.2] at hab
        exact beNat_inj ha.1 hb.1 hab
      | succ n ih =>
        intro a b ha hb hab
        apply ih a b ha hb
        rw [pow_succ, pow_mul, pow_mul] at hab
        exact h.key.inj hab
    rw [this (n + 1) x x' hxm hm' (hxp.trans hp'.symm)]

/-- `invert_mult` with a positive order accepts numbers that are not below N (`invert` refuses them): it inverts them modulo N. -/
theorem c38_large_input {k : Rsa} {s : Priv} (h : TdpKey k s) {y : Bytes} (n : Nat) (hn : n ≠ 0) :
    ∃ x, invertMult k y n = .ok x ∧ IsMsg k x ∧ evalN k n x = .ok (beBytes 256 (beNat y % k.N)) := by
  obtain ⟨x, hx, hm, hpow⟩ := invertMult_eq h y n hn
  refine ⟨x, hx, hm, ?_⟩
  obtain ⟨n, rfl⟩ := Nat.exists_eq_succ_of_ne_zero hn
  rw [evalN_eq h n hm.1, hpow]

example := c38_eval_back exKey_tdp exMsg_msg (2 ^ 32 - 1)
example := c38_iterated exKey_tdp exBlind exCan exMsg_msg 3
example := c38_large_input exKey_tdp (y := List.replicate 256 255) 2 (by omega)

end Verif.Tdp
