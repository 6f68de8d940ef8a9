import Verif.Io.Normal
import Mathlib.Tactic.Ring

/-!
# Keys with composite factors

`mbedtls_rsa_check_privkey` (rsa.c 193-250) does not test whether the factors are primes.
-/

namespace Verif.Io.Composite

open Verif Verif.Tdp Verif.Io.Normal

theorem checkPub_two {k : Rsa} (h : checkPub k = true) : k.N % 2 = 1 ∧ 2 ≤ k.E := by
  refine ⟨(checkPub_facts h).2.2.2, ?_⟩
  by_contra hc
  have hE : k.E = 0 ∨ k.E = 1 := by omega
  have hb : bitlen k.E < 2 := by
    rcases hE with e | e <;> rw [e] <;> decide +kernel
  unfold checkPub at h
  split at h
  · cases h
  · split at h
    · cases h
    · rw [if_pos (Or.inl hb)] at h
      cases h

theorem size_of {k : Rsa} (h1 : k.len = mpiSize k.N) (h2 : k.len = 256) : k.N < 256 ^ 256 :=
  (Tdp.mpiSize_le_iff k.N 256).1 (by omega)

/-- **C123** (partial: the factors must be primes, which the code does not check): an imported private key with prime factors and a modulus of 256 bytes gives a permutation: evaluation maps messages to messages, different messages
to different ones, and every message is a value. -/
theorem c123_permutation_partial (t : Bytes) (ht : t.length < 2 ^ 62) (k : Rsa) (h : importPrivate t = .ok k) (s : Priv) (hs : k.priv = some s) (hp : s.P.Prime) (hq : s.Q.Prime)
    (hl : k.len = 256) :
    (∀ x, IsMsg k x → ∃ y, evalString k x = .ok y ∧ IsMsg k y) ∧
    (∀ x x', IsMsg k x → IsMsg k x' → evalString k x = evalString k x' → x = x') ∧
    (∀ y, IsMsg k y → ∃ x, IsMsg k x ∧ evalString k x = .ok y) := by
  obtain ⟨s', hs', hlen, -, hc, -⟩ := private_facts ht h
  rw [hs] at hs'
  cases hs'
  have hk : TdpKey k s := ⟨hs, c37_imported hs hc hp hq, hl, size_of hlen hl⟩
  refine ⟨fun x hx => ?_, fun x x' hx hx' e => ?_, fun y hy => ?_⟩
  · obtain ⟨y, h1, -, h2, -⟩ := c37_eval hk hx.1
    exact ⟨y, h1, h2⟩
  · obtain ⟨y, h1, -, h2, -⟩ := c37_eval hk hx.1
    obtain ⟨z, -, hz⟩ := c37_bijection hk h2
    rw [hz x ⟨hx, h1⟩, hz x' ⟨hx', e ▸ h1⟩]
  · obtain ⟨x, hx, -⟩ := c37_bijection hk hy
    exact ⟨x, hx⟩

/-- If the square of a number divides the modulus, two messages have the same value. -/
theorem collide {k : Rsa} (h0 : checkPub k = true) (hlen : k.len = mpiSize k.N) (hl : k.len = 256) {r : Nat} (hr : 1 < r) (hd : r * r ∣ k.N) :
    ∃ x x', IsMsg k x ∧ IsMsg k x' ∧ x ≠ x' ∧ evalString k x = evalString k x' := by
  have hsize : k.N < 256 ^ 256 := size_of hlen hl
  obtain ⟨hodd, hE⟩ := checkPub_two h0
  obtain ⟨c, hN⟩ := hd
  have hc0 : 0 < c := by
    rcases Nat.eq_zero_or_pos c with rfl | h
    · rw [hN, Nat.mul_zero] at hodd
      omega
    · exact h
  have hrc : 0 < r * c := Nat.mul_pos (by omega) hc0
  have hlt : r * c < k.N := by
    rw [hN, Nat.mul_assoc]
    exact (Nat.lt_mul_iff_one_lt_left hrc).2 hr
  have hN0 : 0 < k.N := Nat.lt_of_le_of_lt (Nat.zero_le _) hlt
  have hpow : (r * c) ^ k.E % k.N = 0 := by
    apply Nat.mod_eq_zero_of_dvd
    refine Nat.dvd_trans ?_ (Nat.pow_dvd_pow (r * c) hE)
    rw [hN]
    exact ⟨c, by ring⟩
  refine ⟨beBytes 256 (r * c), beBytes 256 0, isMsg_beBytes hsize hlt, isMsg_beBytes hsize hN0, fun e => ?_, ?_⟩
  · have := congrArg beNat e
    rw [beNat_beBytes_of_lt (Nat.lt_trans hlt hsize), beNat_beBytes_of_lt (Nat.lt_trans hN0 hsize)] at this
    omega
  · rw [evalString_eq hl hsize hodd (beBytes_length _ _), evalString_eq hl hsize hodd (beBytes_length _ _), beNat_beBytes_of_lt (Nat.lt_trans hlt hsize),
      beNat_beBytes_of_lt (Nat.lt_trans hN0 hsize), hpow, Nat.zero_pow (by omega), Nat.zero_mod]

/-- **C123**: if the square of a number divides the modulus of an imported private key, two messages have the same value. -/
theorem c123_square (t : Bytes) (ht : t.length < 2 ^ 62) (k : Rsa) (h : importPrivate t = .ok k) (hl : k.len = 256) (r : Nat) (hr : 1 < r) (hd : r * r ∣ k.N) :
    ∃ x x', IsMsg k x ∧ IsMsg k x' ∧ x ≠ x' ∧ evalString k x = evalString k x' := by
  obtain ⟨s, hs, hlen, -, hc, -⟩ := private_facts ht h
  exact collide (checkPriv_facts hs hc).1 hlen hl hr hd

/-- **C123**: the same for public keys, whose factors are not known to the code. -/
theorem c123_square_public (t : Bytes) (ht : t.length < 2 ^ 62) (k : Rsa) (h : importPublic t = .ok k) (hl : k.len = 256) (r : Nat) (hr : 1 < r) (hd : r * r ∣ k.N) :
    ∃ x x', IsMsg k x ∧ IsMsg k x' ∧ x ≠ x' ∧ evalString k x = evalString k x' := by
  rcases c42_import_public_safe t ht with h' | ⟨k', h', hc, hlen, -⟩
  · rw [h] at h'
    cases h'
  · rw [h] at h'
    cases h'
    exact collide hc hlen hl hr hd

/-- A number whose square is a factor of the key below. -/
def root : Nat := 3 * 2 ^ 510 + 1

/-- Numbers that pass the check; the first factor is a square. -/
def sqPriv : Priv :=
  { D := 1370457788055468664749171718520036966535507106184390585537689234112417202576606697511306081027208570535100186874882241526928587506695759833258611665600268132033354864735546446248396260711582957059206167526518305796275953770939631955266446529269751163238567855639679452684082353098082603854687631033244724868091346380627390946145705149761712475856717371996744384293270457141777110114161397901742138972879162952633953965727249616145776746635404049558319584451166209
    P := root * root, Q := exQ
    DP := 52091496152438682180260926358016690598925863164571245042756817455879804357486669883911319298579626215421560990628426499850528720860441121358764132238633886279815677781501717660412194895517733387287493189327311981838019823201478809284673768366148268432989974324593744515353197141688307805689409477198156333057
    DQ := 85679542686240599319809265829102488629173308445465654074764783163843871975762255001331127681759536544757883475267761698172231429357979027869372141692110499959081427748697394166396681967325798621339302945683271903275110836280868666411660075988296654814232819399449262887125232791126945742612894245641577758721
    QP := 40701612667155166133853342759913321406519449536923949891482200527189362573860758394227273038663586310467282661192850000476925157875635010925374986362418004042171922220413628950238054803184752210894956145140988644412984085575710362662552972132683788099863856985052739315744669339989966075597166682130910984378 }

/-- The key with these numbers. -/
def sqKey : Rsa := { len := 256, N := root * root * exQ, E := 65537, priv := some sqPriv, blind := none }

theorem sqKey_check : checkPriv sqKey = true := by decide +kernel

theorem sqKey_import : importPrivate (privText sqKey.N sqKey.E sqPriv) = .ok sqKey :=
  (c42_import_private (k := sqKey) (s := sqPriv) rfl sqKey_check (by decide +kernel) (by decide +kernel)).1

/-- **C123**: there is a text that is accepted as a private key of 2048 bits and whose trapdoor permutation is not one: two messages have the same value, and
nothing recovers all messages from their values. -/
theorem c123_false : ∃ text k, importPrivate text = .ok k ∧ k.len = 256 ∧ k.E = 65537 ∧
    (∃ x x', IsMsg k x ∧ IsMsg k x' ∧ x ≠ x' ∧ evalString k x = evalString k x') ∧
    ∀ f : Res Bytes → Res Bytes, ∃ x, IsMsg k x ∧ f (evalString k x) ≠ .ok x := by
  have hx := c123_square _ (by decide +kernel) _ sqKey_import rfl root (by decide +kernel) ⟨exQ, rfl⟩
  refine ⟨_, sqKey, sqKey_import, rfl, rfl, hx, fun f => ?_⟩
  obtain ⟨x, x', h1, h2, hne, he⟩ := hx
  by_cases hf : f (evalString sqKey x) = .ok x
  · refine ⟨x', h2, fun hf' => hne ?_⟩
    rw [← he, hf] at hf'
    injection hf'
  · exact ⟨x, h1, hf⟩

/-! ## Cases -/

/-- The example key, which has prime factors. -/
example : ∃ t, importPrivate t = .ok exKey ∧ ∀ y, IsMsg exKey y → ∃ x, IsMsg exKey x ∧ evalString exKey x = .ok y := by
  have h : importPrivate (privText exKey.N exKey.E exPriv) = .ok exKey :=
    (c42_import_private (k := exKey) (s := exPriv) rfl exKey_check (by decide +kernel) (by decide +kernel)).1
  exact ⟨_, h, (c123_permutation_partial _ (by decide +kernel) _ h exPriv rfl exP_prime exQ_prime rfl).2.2⟩

/-- The key with the square, as a public key. -/
example : ∃ t k, importPublic t = .ok k ∧ ∃ x x', IsMsg k x ∧ IsMsg k x' ∧ x ≠ x' ∧ evalString k x = evalString k x' := by
  obtain ⟨-, h2⟩ := c42_public (checkPriv_facts (k := sqKey) rfl sqKey_check).1
  exact ⟨_, _, h2, c123_square_public _ (by decide +kernel) _ h2 (by decide +kernel) root (by decide +kernel) ⟨exQ, rfl⟩⟩

end Verif.Io.Composite
