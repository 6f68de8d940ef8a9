import Verif.Tdp.Props

/-!
# The RSA trapdoor permutation: pools, generated messages and input lengths (C39, C40, C41)
-/

namespace Verif.Tdp

open Verif

/-! ## C39: pools -/

theorem poolLoop_spec {n : Nat} {k : Rsa} {l : List Rsa} (h : poolLoop n k = .ok l) :
    l.length = n ∧ ∀ j, j < n → ∃ q, l[j]? = some q ∧ q.E = k.E * 65537 ^ (j + 1) ∧ q.N = k.N ∧ q.len = k.len := by
  induction n generalizing k l with
  | zero =>
    rw [poolLoop] at h
    rw [← Res.ok.inj h]
    exact ⟨rfl, fun j hj => by omega⟩
  | succ n ih =>
    rw [poolLoop] at h
    simp only at h
    by_cases hc : checkPub { rsaCopy k with E := k.E * rsaPk } = false
    · rw [if_pos hc] at h; simp at h
    · rw [if_neg hc] at h
      rcases hl : poolLoop n { rsaCopy k with E := k.E * rsaPk } with l' | e | _
      · rw [hl] at h
        have h' := Res.ok.inj h
        subst h'
        obtain ⟨h1, h2⟩ := ih hl
        refine ⟨by simp [h1], ?_⟩
        intro j hj
        rcases j with _ | j
        · exact ⟨_, rfl, by simp [rsaPk], rfl, rfl⟩
        · obtain ⟨q, hq, hE, hN, hlen⟩ := h2 j (by omega)
          refine ⟨q, by simpa using hq, ?_, by rw [hN]; rfl, by rw [hlen]; rfl⟩
          rw [hE]
          show k.E * rsaPk * 65537 ^ (j + 1) = _
          unfold rsaPk
          ring
      · rw [hl] at h; cases h
      · rw [hl] at h; cases h

theorem mkPool_spec {k : Rsa} {size : Nat} (hsz : size < 256) {p : Pool} (h : mkPool k size = .ok p) :
    2 ≤ size ∧ p.base = k ∧ p.count = size - 1 ∧ p.maxOrder = size ∧ poolLoop (size - 1) k = .ok p.keys := by
  unfold mkPool at h
  simp only at h
  by_cases h0 : size = 0
  · rw [if_pos h0] at h; cases h
  · rw [if_neg h0] at h
    by_cases h1 : (size + 255) % 256 = 0
    · rw [if_pos h1] at h; cases h
    · rw [if_neg h1] at h
      have hc : (size + 255) % 256 = size - 1 := by omega
      rw [hc] at h
      rw [Res.bind_eq_ok] at h
      obtain ⟨l, hl, hp⟩ := h
      have hp' := Res.ok.inj hp
      subst hp'
      refine ⟨by omega, rfl, rfl, ?_, hl⟩
      unfold Pool.maxOrder
      simp only
      omega

/-- The key used for an order in the range of the pool. -/
theorem select_spec {k : Rsa} {size : Nat} (hsz : size < 256) {p : Pool} (h : mkPool k size = .ok p) {n : Nat} (h1 : 1 ≤ n) (h2 : n ≤ size) :
    ∃ q, p.select n = .ok q ∧ q.E = k.E * 65537 ^ (n - 1) ∧ q.N = k.N := by
  obtain ⟨hs2, hb, hc, hm, hl⟩ := mkPool_spec hsz h
  unfold Pool.select
  by_cases hn : n = 1
  · rw [if_pos hn, hb]
    subst hn
    exact ⟨k, rfl, by simp, rfl⟩
  · rw [if_neg hn, if_pos (by omega), if_neg (by omega)]
    obtain ⟨hlen, hq⟩ := poolLoop_spec hl
    obtain ⟨q, hq1, hq2, hq3, -⟩ := hq (n - 2) (by omega)
    rw [hq1]
    exact ⟨q, rfl, by rw [hq2, show n - 2 + 1 = n - 1 by omega], hq3⟩

/-- **C39**, what the pool computes: for every order in its range, the power E 65537^(order-1). -/
theorem c39_exponent {k : Rsa} (hl : k.len = 256) (hs : k.N < 256 ^ 256) (ho : k.N % 2 = 1) {size : Nat} (hsz : size < 256) {p : Pool}
    (h : mkPool k size = .ok p) (m : Bytes) {n : Nat} (h1 : 1 ≤ n) (h2 : n ≤ size) :
    evalPool p m n = .ok (beBytes 256 (beNat m ^ (k.E * 65537 ^ (n - 1)) % k.N)) := by
  obtain ⟨q, hq, hE, hN⟩ := select_spec hsz h h1 h2
  have hpos : 0 < k.N := by omega
  unfold evalPool
  rw [hq, Res.bind_ok, (mkPool_spec hsz h).2.1, if_neg (by rw [hl]; decide), hN, hE, mpiExpMod_odd ho]
  simp only [orThrow, Res.bind_ok]
  rw [writeIgnored_ok (lt_trans (Nat.mod_lt _ hpos) hs)]

/-- Iterated evaluation with a public key. -/
theorem evalN_eq' {k : Rsa} (hl : k.len = 256) (hs : k.N < 256 ^ 256) (ho : k.N % 2 = 1) (n : Nat) {m : Bytes} (hm : m.length = 256) :
    evalN k (n + 1) m = .ok (beBytes 256 (beNat m ^ (k.E ^ (n + 1)) % k.N)) := by
  have hpos : 0 < k.N := by omega
  induction n generalizing m with
  | zero => rw [evalN, evalString_eq hl hs ho hm, Res.bind_ok, evalN, zero_add, pow_one]
  | succ n ih =>
    rw [evalN, evalString_eq hl hs ho hm, Res.bind_ok, ih (beBytes_length _ _),
      beNat_beBytes_of_lt (lt_trans (Nat.mod_lt _ hpos) hs)]
    congr 2
    rw [pow_succ k.E (n + 1), mul_comm, pow_mul]
    exact (Nat.mod_modEq _ _).pow _

/-- **C39** for keys with the exponent 65537 (all keys made by this library): evaluation of order `n` in the range of the pool equals `n`
evaluations, for strings and arrays. -/
theorem c39_pool_partial {k : Rsa} (hl : k.len = 256) (hs : k.N < 256 ^ 256) (ho : k.N % 2 = 1) (hE : k.E = 65537) {size : Nat}
    (hsz : size < 256) {p : Pool} (h : mkPool k size = .ok p) {m : Bytes} (hm : m.length = 256) {n : Nat} (h1 : 1 ≤ n) (h2 : n ≤ size) :
    evalPool p m n = evalN k n m ∧ evalPoolString p m n = evalN k n m := by
  obtain ⟨n, rfl⟩ : ∃ j, n = j + 1 := ⟨n - 1, by omega⟩
  have e : evalPool p m (n + 1) = evalN k (n + 1) m := by
    rw [c39_exponent hl hs ho hsz h m h1 h2, evalN_eq' hl hs ho n hm]
    simp only [Nat.add_sub_cancel]
    rw [hE, pow_succ 65537 n, mul_comm]
  refine ⟨e, ?_⟩
  rw [← e]
  unfold evalPoolString copyIn
  rw [(mkPool_spec hsz h).2.1, if_neg (by rw [hl, hm]; decide), if_neg (by rw [hm]; decide), Res.bind_ok,
    List.take_of_length_le (by rw [hm]; decide)]

/-- **C39**: an order above the size of the pool is refused. -/
theorem c39_order_above {k : Rsa} {size : Nat} (hsz : size < 256) {p : Pool} (h : mkPool k size = .ok p) (m : Bytes) {n : Nat} (hn : size < n) :
    evalPool p m n = .exc .invalidArgument := by
  obtain ⟨hs2, hb, hc, hm, hl⟩ := mkPool_spec hsz h
  unfold evalPool Pool.select
  rw [if_neg (by omega), if_neg (by omega)]
  rfl

/-- C39 does not hold for order 0: instead of throwing, the code reads two elements before the beginning of an array. -/
theorem c39_order_zero_false (p : Pool) (m : Bytes) : evalPool p m 0 = .ub := by
  unfold evalPool Pool.select
  rw [if_neg (by omega), if_pos (Nat.zero_le _), if_pos (by omega)]
  rfl

/-- C39 does not hold for pools of size 1: instead of working or throwing, the constructor writes outside an empty array. -/
theorem c39_size_one_false (k : Rsa) : mkPool k 1 = .ub := by
  unfold mkPool
  simp

/-- **C39**: size 0 is refused. -/
theorem c39_size_zero (k : Rsa) : mkPool k 0 = .exc .invalidArgument := by
  unfold mkPool
  simp

theorem checkPub_iff (k : Rsa) : checkPub k = true ↔
    k.N % 2 = 1 ∧ k.E % 2 = 1 ∧ 2 ^ 127 ≤ k.N ∧ k.N < 2 ^ 8192 ∧ 2 ≤ k.E ∧ k.E < k.N := by
  have h1 := bitlen_le_iff k.N 127
  have h2 := bitlen_le_iff k.N 8192
  have h3 := bitlen_le_iff k.E 1
  generalize hP : (2 : Nat) ^ 8192 = B at *
  generalize hQ : (2 : Nat) ^ 127 = C at *
  rw [pow_one] at h3
  unfold checkPub
  by_cases c1 : k.N % 2 = 0 ∨ k.E % 2 = 0
  · rw [if_pos c1]; simp only [Bool.false_eq_true, false_iff]; omega
  · rw [if_neg c1]
    by_cases c2 : bitlen k.N < 128 ∨ bitlen k.N > 8192
    · rw [if_pos c2]; simp only [Bool.false_eq_true, false_iff]; omega
    · rw [if_neg c2]
      by_cases c3 : bitlen k.E < 2 ∨ k.E ≥ k.N
      · rw [if_pos c3]; simp only [Bool.false_eq_true, false_iff]; omega
      · rw [if_neg c3]; simp only [true_iff]; omega

/-- Which pool constructions succeed. -/
theorem poolLoop_ok {n : Nat} {k : Rsa} (hk : checkPub k = true) (hlt : n ≠ 0 → k.E * 65537 ^ n < k.N) : ∃ l, poolLoop n k = .ok l := by
  induction n generalizing k with
  | zero => exact ⟨[], rfl⟩
  | succ n ih =>
    rw [checkPub_iff] at hk
    obtain ⟨a1, a2, a3, a4, a5, a6⟩ := hk
    have hlt' := hlt (by omega)
    have hstep : k.E * 65537 ≤ k.E * 65537 * 65537 ^ n := Nat.le_mul_of_pos_right _ (by positivity)
    have hE' : k.E * 65537 * 65537 ^ n = k.E * 65537 ^ (n + 1) := by ring
    have hc : checkPub { rsaCopy k with E := k.E * rsaPk } = true := by
      rw [checkPub_iff]
      refine ⟨a1, ?_, a3, a4, ?_, ?_⟩
      · show k.E * rsaPk % 2 = 1
        unfold rsaPk
        omega
      · show 2 ≤ k.E * rsaPk
        unfold rsaPk
        omega
      · show k.E * 65537 < k.N
        omega
    obtain ⟨l, hl⟩ := ih hc (fun _ => by show k.E * 65537 * 65537 ^ n < k.N; omega)
    refine ⟨{ rsaCopy k with E := k.E * rsaPk } :: l, ?_⟩
    rw [poolLoop]
    simp only
    rw [if_neg (by simp [hc]), hl]
    rfl

theorem poolLoop_exc {n : Nat} {k : Rsa} (hge : k.N ≤ k.E * 65537 ^ n) (hn : n ≠ 0) : poolLoop n k = .exc .runtimeError := by
  induction n generalizing k with
  | zero => exact absurd rfl hn
  | succ n ih =>
    rw [poolLoop]
    simp only
    by_cases hc : checkPub { rsaCopy k with E := k.E * rsaPk } = false
    · rw [if_pos hc]
    · rw [if_neg hc]
      have hc' : checkPub { rsaCopy k with E := k.E * rsaPk } = true := by simpa using hc
      rw [checkPub_iff] at hc'
      have hlt : k.E * 65537 < k.N := hc'.2.2.2.2.2
      rw [ih (k := { rsaCopy k with E := k.E * rsaPk }) (by show k.N ≤ k.E * 65537 * 65537 ^ n; rw [mul_assoc, ← pow_succ']; exact hge)
        (by rintro rfl; simp at hge; omega)]
      rfl

/-- **C39**: for a 2048-bit key with the exponent 65537 a pool can be made exactly for the sizes 2 to 127; sizes from 128 are refused. -/
theorem c39_sizes {k : Rsa} (hk : checkPub k = true) (hlo : 2 ^ 2047 ≤ k.N) (hhi : k.N < 2 ^ 2048) (hE : k.E = 65537) {size : Nat}
    (hsz : size < 256) :
    (2 ≤ size → size ≤ 127 → ∃ p, mkPool k size = .ok p) ∧ (128 ≤ size → mkPool k size = .exc .runtimeError) := by
  have unfoldIt : ∀ n, 2 ≤ n → n < 256 → mkPool k n = (poolLoop (n - 1) k >>= fun keys => .ok { base := k, keys := keys, count := n - 1 }) := by
    intro n hn hn2
    have : (n + 255) % 256 = n - 1 := by omega
    unfold mkPool
    simp only
    rw [if_neg (by omega), this, if_neg (by omega)]
    rfl
  constructor
  · intro h2 h127
    obtain ⟨l, hl⟩ := poolLoop_ok (n := size - 1) hk (fun _ => by
      rw [hE, ← pow_succ', show size - 1 + 1 = size by omega]
      calc 65537 ^ size ≤ 65537 ^ 127 := Nat.pow_le_pow_right (by omega) h127
        _ < 2 ^ 2047 := by decide +kernel
        _ ≤ k.N := hlo)
    exact ⟨_, by rw [unfoldIt size h2 hsz, hl]; rfl⟩
  · intro h128
    rw [unfoldIt size (by omega) hsz, poolLoop_exc (n := size - 1) _ (by omega)]
    · rfl
    · rw [hE, ← pow_succ', show size - 1 + 1 = size by omega]
      have h1 : k.N < 65537 ^ 128 := lt_trans hhi (by decide +kernel)
      exact le_trans (le_of_lt h1) (Nat.pow_le_pow_right (by omega) h128)

/-- A public key with exponent 3 which the library accepts. -/
def exKey3 : Rsa := { len := 256, N := 2 ^ 2047 + 1, E := 3, priv := none, blind := none }

/-- C39 does not hold for keys with another exponent, which the library accepts: the pool multiplies by 65537 instead of E. -/
theorem c39_other_exponent_false : checkPub exKey3 = true ∧ ∃ p, mkPool exKey3 2 = .ok p ∧
    evalPool p (beBytes 256 2) 2 ≠ evalN exKey3 2 (beBytes 256 2) := by
  have hc : checkPub exKey3 = true := by decide +kernel
  refine ⟨hc, ?_⟩
  have hs : exKey3.N < 256 ^ 256 := by decide +kernel
  have ho : exKey3.N % 2 = 1 := by decide +kernel
  obtain ⟨l, hl⟩ := poolLoop_ok (n := 1) hc (fun _ => by decide +kernel)
  have hp : mkPool exKey3 2 = .ok { base := exKey3, keys := l, count := 1 } := by
    unfold mkPool
    simp only
    rw [if_neg (by omega), if_neg (by omega), show (2 + 255) % 256 = 1 from rfl, hl]
    rfl
  refine ⟨_, hp, ?_⟩
  rw [c39_exponent rfl hs ho (by omega) hp _ (by omega) (by omega), evalN_eq' rfl hs ho 1 (beBytes_length _ _)]
  intro h
  have h' := congrArg beNat (Res.ok.inj h)
  have lt : ∀ z, z % exKey3.N < 256 ^ 256 := fun z => lt_trans (Nat.mod_lt z (by omega)) hs
  rw [beNat_beBytes_of_lt (lt _), beNat_beBytes_of_lt (lt _), beNat_beBytes_of_lt (by decide +kernel)] at h'
  revert h'
  decide +kernel

theorem copyKeys_eq {l : List Rsa} (h : ∀ k ∈ l, checkPub k = true) : copyKeys l = .ok l := by
  induction l with
  | nil => rfl
  | cons k l ih =>
    have hk : checkPub (rsaCopy k) = true := h k List.mem_cons_self
    rw [copyKeys, if_neg (by simp [hk]), ih (fun q hq => h q (List.mem_cons_of_mem _ hq))]
    rfl

theorem poolLoop_check {n : Nat} {k : Rsa} {l : List Rsa} (h : poolLoop n k = .ok l) : ∀ q ∈ l, checkPub q = true := by
  induction n generalizing k l with
  | zero =>
    rw [poolLoop] at h
    rw [← Res.ok.inj h]
    intro q hq
    exact absurd hq List.not_mem_nil
  | succ n ih =>
    rw [poolLoop] at h
    simp only at h
    by_cases hc : checkPub { rsaCopy k with E := k.E * rsaPk } = false
    · rw [if_pos hc] at h; cases h
    · rw [if_neg hc] at h
      rcases hl : poolLoop n { rsaCopy k with E := k.E * rsaPk } with l' | e | _
      · rw [hl] at h
        have h' := Res.ok.inj h
        subst h'
        intro q hq
        rcases List.mem_cons.1 hq with rfl | hq
        · simpa using hc
        · exact ih hl q hq
      · rw [hl] at h; cases h
      · rw [hl] at h; cases h

/-- **C39**: copying a pool (the copy constructor and the assignment of `TdpMultPool`) gives the same pool. -/
theorem c39_copy {k : Rsa} (hk : checkPub k = true) {size : Nat} (hsz : size < 256) {p : Pool} (h : mkPool k size = .ok p) : p.copy = .ok p := by
  obtain ⟨hs2, hb, hc, hm, hl⟩ := mkPool_spec hsz h
  unfold Pool.copy
  have hk' : checkPub (rsaCopy p.base) = true := by rw [hb]; exact hk
  rw [if_neg (by simp [hk']), copyKeys_eq (poolLoop_check hl)]
  rfl

/-- The assignment operator of the implementation class (not used by `TdpMultPool`) does not assign the base key: order 1 is still
evaluated with the old key while the other orders use the new one. -/
theorem c39_impl_assign_false {k t : Rsa} {n1 n2 : Nat} (h1s : n1 < 256) (h2s : n2 < 256) {p q : Pool} (h1 : mkPool k n1 = .ok p)
    (h2 : mkPool t n2 = .ok q) : ∃ r, p.assign q = .ok r ∧ r.select 1 = .ok k ∧ ∀ n, 2 ≤ n → r.select n = q.select n := by
  obtain ⟨-, hb, -, -, -⟩ := mkPool_spec h1s h1
  obtain ⟨-, hb2, hc2, hm2, hl2⟩ := mkPool_spec h2s h2
  refine ⟨{ base := p.base, keys := q.keys, count := q.count }, ?_, ?_, ?_⟩
  · unfold Pool.assign
    rw [copyKeys_eq (poolLoop_check hl2)]
    rfl
  · unfold Pool.select
    rw [if_pos rfl, hb]
  · intro n hn
    unfold Pool.select
    rw [if_neg (show n ≠ 1 by omega), if_neg (show n ≠ 1 by omega)]
    rfl

theorem exKey_check : checkPub exKey = true := by decide +kernel

example : ∃ p, mkPool exKey 100 = .ok p ∧ evalPool p exMsg 77 = evalN exKey 77 exMsg ∧ evalPool p exMsg 101 = .exc .invalidArgument ∧
    p.copy = .ok p := by
  obtain ⟨p, hp⟩ := (c39_sizes exKey_check (by decide +kernel) (by decide +kernel) rfl (size := 100) (by omega)).1 (by omega) (by omega)
  exact ⟨p, hp, (c39_pool_partial rfl exKey_tdp.size exKey_rsa.Nodd rfl (by omega) hp exMsg_msg.1 (by omega) (by omega)).1,
    c39_order_above (by omega) hp exMsg (by omega), c39_copy exKey_check (by omega) hp⟩

/-! ## C40: generated messages -/

/-- **C40**: a generated message is the encoding of the 264-byte PRF value of the seed modulo N: it depends on the key bytes and the seed only,
not on uninitialised memory, and it is a message. -/
theorem c40_generate {H : Bytes → Bytes} (hH : ∀ m, (H m).length = 64) (junk : Nat → UInt8) {fuel : Nat} (hf : 1024 ≤ fuel) {key : Bytes}
    (hkey : key.length = 32) {k : Rsa} (hN : 0 < k.N) (hs : k.N < 256 ^ 256) (seed : Bytes) :
    ∃ m, generate H junk fuel (some key) k seed = some (.ok m) ∧ IsMsg k m ∧ beNat m = beNat (Mac.prfSpec H key seed 264) % k.N := by
  have hlt := Nat.mod_lt (beNat (Mac.prfSpec H key seed 264)) hN
  refine ⟨_, ?_, isMsg_beBytes hs hlt, ?_⟩
  · unfold generate Mac.prfString
    rw [Mac.c17_prf hH junk key seed hkey 264 (by omega) fuel hf]
    simp only [Option.map_some, Res.bind_ok]
    rw [mpiMod_nat hN]
    simp only [orThrow, Res.bind_ok, writeZeroed]
    unfold msgSize
    rw [mpiWrite_some (lt_trans hlt hs)]
    rfl
  · rw [beNat_beBytes_of_lt (lt_trans hlt hs)]

/-- **C40**: a sampled message is the encoding of the 264 random bytes modulo N, for every output of the random source. -/
theorem c40_sample (rng : Nat → Nat → Nat) {k : Rsa} (hN : 0 < k.N) (hs : k.N < 256 ^ 256) (i : Nat) :
    ∃ m, sample rng k i = .ok m ∧ IsMsg k m ∧ beNat m = rng i 264 % k.N := by
  have hlt := Nat.mod_lt (rng i 264) hN
  refine ⟨_, ?_, isMsg_beBytes hs hlt, ?_⟩
  · unfold sample
    rw [mpiMod_nat hN]
    simp only [orThrow, Res.bind_ok, writeZeroed]
    unfold msgSize
    rw [mpiWrite_some (lt_trans hlt hs)]
    rfl
  · rw [beNat_beBytes_of_lt (lt_trans hlt hs)]

/-- C40 does not hold for keys with a longer modulus, which the constructors accept: `sample` returns zero for every random number that
does not fit 256 bytes, since the error of the write is ignored. -/
theorem c40_long_modulus_false (rng : Nat → Nat → Nat) {k : Rsa} (hN : 0 < k.N) (i : Nat) (hbig : 256 ^ 256 ≤ rng i 264 % k.N) :
    sample rng k i = .ok (List.replicate 256 0) := by
  unfold sample
  rw [mpiMod_nat hN]
  simp only [orThrow, Res.bind_ok, writeZeroed]
  unfold msgSize
  rw [mpiWrite_none hbig]
  rfl

example := c40_generate Mac.toyH_length (fun _ => 7) (fuel := 1024) (by omega) (key := Mac.toyKey32) (by decide) exKey_tdp.key.Npos exKey_tdp.size [1, 2, 3]
example := c40_sample exRng exKey_tdp.key.Npos exKey_tdp.size 5

/-- A public key with a 4096-bit modulus which the library accepts. -/
def exKeyLong : Rsa := { len := 512, N := 2 ^ 4095 + 1, E := 65537, priv := none, blind := none }

example : checkPub exKeyLong = true ∧ sample (fun _ _ => 2 ^ 2100) exKeyLong 0 = .ok (List.replicate 256 0) :=
  ⟨by decide +kernel, c40_long_modulus_false _ (by decide +kernel) 0 (by decide +kernel)⟩

/-! ## C41: lengths -/

/-- **C41** for keys with a 256-byte modulus: whatever the length of the string, `eval`, `invert` and the pool evaluation (with an order
different from 0) never read or write outside their buffers, and a length different from 256 is refused with `invalid_argument`; `invert_mult`
does so for strings of at least 256 bytes. What is missing: `invert_mult` with shorter strings, and other key sizes. -/
theorem c41_lengths_partial (rng : Nat → Nat → Nat) {k : Rsa} {s : Priv} (h : TdpKey k s) (i : Nat) (m : Bytes) :
    evalString k m ≠ .ub ∧ (invertString rng k i m).1 ≠ .ub ∧
    (m.length ≠ 256 → evalString k m = .exc .invalidArgument ∧ invertString rng k i m = (.exc .invalidArgument, k, i)) ∧
    (256 ≤ m.length → ∀ n, invertMultString k m n ≠ .ub) := by
  have hne : m.length ≠ 256 → evalString k m = .exc .invalidArgument ∧ invertString rng k i m = (.exc .invalidArgument, k, i) := by
    intro hl
    unfold evalString invertString
    rw [if_pos (by rw [h.len]; exact hl), if_pos (show m.length ≠ msgSize from hl)]
    exact ⟨rfl, rfl⟩
  refine ⟨?_, ?_, hne, ?_⟩
  · by_cases hl : m.length = 256
    · rw [evalString_eq h.len h.size h.key.Nodd hl]; exact fun e => by cases e
    · rw [(hne hl).1]; exact fun e => by cases e
  · by_cases hl : m.length = 256
    · rw [invertString_eq rng k i hl]
      unfold invertBuf rsaPrivate
      simp only [h.priv]
      rw [if_neg (by simp), if_neg (by rw [h.len, hl]; omega), List.take_of_length_le (by rw [h.len, hl])]
      by_cases hb : beNat m ≥ k.N
      · rw [if_pos hb]; exact fun e => by cases e
      · rw [if_neg hb]
        rcases prepBlind rng k i with ⟨_ | _, ⟨vi, vf⟩, i'⟩
        · exact fun e => by cases e
        · simp only
          rcases hx : crtPrivate k.N s vi vf (beNat m) (rng i' 28) (rng (i' + 1) 28) with _ | x
          · exact fun e => by cases e
          · simp only
            unfold mpiWrite
            by_cases hw : k.len < mpiSize x
            · rw [if_pos hw]; exact fun e => by cases e
            · rw [if_neg hw]
              simp only
              rw [if_pos (by rw [beBytes_length, h.len]; rfl)]
              exact fun e => by cases e
    · rw [(hne hl).2]; exact fun e => by cases e
  · intro hl n
    unfold invertMultString copyIn
    rw [if_neg (by unfold msgSize; omega), Res.bind_ok]
    by_cases hn : n = 0
    · subst hn; exact fun e => by cases e
    · obtain ⟨x, hx, -⟩ := invertMult_eq h (m.take msgSize) n hn
      rw [hx]; exact fun e => by cases e

/-- C41 does not hold for `invert_mult`: a string shorter than 256 bytes is read past its end. -/
theorem c41_invert_mult_short_false (k : Rsa) {m : Bytes} (hm : m.length < 256) (n : Nat) : invertMultString k m n = .ub := by
  unfold invertMultString copyIn
  rw [if_pos (by unfold msgSize; omega)]
  rfl

/-- C41 does not hold for keys with a shorter modulus, which the constructors accept: `eval` accepts strings of the length of the modulus
and reads past their end. -/
theorem c41_short_modulus_false {k : Rsa} (hk : k.len < 256) {m : Bytes} (hm : m.length = k.len) : evalString k m = .ub := by
  unfold evalString copyIn
  rw [if_neg (by omega), if_pos (by unfold msgSize; omega)]
  rfl

/-- C41 does not hold for keys with a longer modulus: `invert` reads past the end of its 256-byte input, for both versions. -/
theorem c41_long_modulus_false (rng : Nat → Nat → Nat) {k : Rsa} {s : Priv} (hs : k.priv = some s) (hk : 256 < k.len) (i : Nat) {m : Bytes}
    (hm : m.length = 256) : (invertString rng k i m).1 = .ub ∧ (invertBuf rng k i m).1 = .ub := by
  have : (invertBuf rng k i m).1 = .ub := by
    unfold invertBuf
    rw [if_neg (by simp [hs]), if_pos (by omega)]
  exact ⟨by rw [invertString_eq rng k i hm]; exact this, this⟩

/-- **C41**: the pool refuses strings of another length than the modulus, and with a 256-byte modulus it never reads outside its buffers for
orders different from 0. -/
theorem c41_pool_partial {k : Rsa} (hl : k.len = 256) (hs : k.N < 256 ^ 256) (ho : k.N % 2 = 1) {size : Nat} (hsz : size < 256) {p : Pool}
    (h : mkPool k size = .ok p) (m : Bytes) {n : Nat} (hn : n ≠ 0) :
    evalPoolString p m n ≠ .ub ∧ (m.length ≠ 256 → evalPoolString p m n = .exc .invalidArgument) := by
  have hb := (mkPool_spec hsz h).2.1
  have hne : m.length ≠ 256 → evalPoolString p m n = .exc .invalidArgument := by
    intro hlm
    unfold evalPoolString
    rw [hb, if_pos (by omega)]
  refine ⟨?_, hne⟩
  by_cases hlm : m.length = 256
  · unfold evalPoolString copyIn
    rw [hb, if_neg (by omega), if_neg (by unfold msgSize; omega), Res.bind_ok]
    by_cases hns : n ≤ size
    · rw [c39_exponent hl hs ho hsz h _ (by omega) hns]; exact fun e => by cases e
    · rw [c39_order_above hsz h _ (by omega)]; exact fun e => by cases e
  · rw [hne hlm]; exact fun e => by cases e

example := c41_lengths_partial exRng exKey_tdp 0 [1, 2, 3]
example : invertMultString exKey [1, 2, 3] 5 = .ub := c41_invert_mult_short_false exKey (by decide) 5

/-- A public key with a 1024-bit modulus which the library accepts. -/
def exKeyShort : Rsa := { len := 128, N := 2 ^ 1023 + 1, E := 65537, priv := none, blind := none }

example : checkPub exKeyShort = true ∧ evalString exKeyShort (List.replicate 128 1) = .ub :=
  ⟨by decide +kernel, c41_short_modulus_false (by decide) (by simp [exKeyShort])⟩

end Verif.Tdp
