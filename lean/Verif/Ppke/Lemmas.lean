import Verif.Ppke.Model
import Verif.Mac.Lemmas
import Mathlib.Data.ZMod.Basic
import Mathlib.Algebra.Field.ZMod
import Mathlib.Tactic.LinearCombination
import Mathlib.Tactic.Ring
import Mathlib.RingTheory.Coprime.Lemmas
import Mathlib.RingTheory.Int.Basic
import Mathlib.Algebra.BigOperators.Group.List.Basic

/-!
# The laws of the external primitives, and scalar arithmetic modulo the group order
-/

namespace Verif.Ppke

set_option linter.unusedSectionVars false

open Verif

variable {G1 G2 GT : Type} [AddCommGroup G1] [AddCommGroup G2] [AddCommGroup GT]

/-- What the theorems assume of RELIC and of the hash functions. -/
structure Grp.Ok (G : Grp G1 G2 GT) : Prop where
  /-- the order is a prime number, and annihilates the three groups -/
  prime : G.r.Prime
  tor1 : ∀ x : G1, (G.r : Int) • x = 0
  tor2 : ∀ x : G2, (G.r : Int) • x = 0
  torT : ∀ x : GT, (G.r : Int) • x = 0
  /-- the generators are not neutral -/
  g1_ne : G.g1 ≠ 0
  g2_ne : G.g2 ≠ 0
  /-- the pairing is bilinear, and `gt_get_gen` is the pairing of the generators -/
  pair_add_left : ∀ x x' y, G.pair (x + x') y = G.pair x y + G.pair x' y
  pair_add_right : ∀ x y y', G.pair x (y + y') = G.pair x y + G.pair x y'
  gen : G.pair G.g1 G.g2 = G.gT
  /-- `bn_gcd_ext` returns a Bézout cofactor that is at least `-order` -/
  cofactor : ∀ a : Int, 0 < a → a < G.r → (G.r : Int) ∣ a * G.cofactor a - 1
  cofactor_ge : ∀ a : Int, 0 < a → a < G.r → -(G.r : Int) ≤ G.cofactor a
  /-- encodings: a fixed size except for the neutral elements (one byte), and decoding inverts encoding -/
  enc1_len : ∀ x : G1, x ≠ 0 → (G.enc1 x).length = 33
  enc1_zero : (G.enc1 0).length = 1
  dec1_enc1 : ∀ x : G1, x ≠ 0 → G.dec1 (G.enc1 x) = .ok x
  enc2_len : ∀ x : G2, x ≠ 0 → (G.enc2 x).length = 65
  enc2_zero : (G.enc2 0).length = 1
  dec2_enc2 : ∀ x : G2, x ≠ 0 → G.dec2 (G.enc2 x) = .ok x
  encT_len : ∀ x : GT, (G.encT x).length = 384
  /-- the hash function has 64-byte digests -/
  H_len : ∀ m, (G.H m).length = 64

variable {G : Grp G1 G2 GT}

/-! ## Scalars -/

section
variable (G)

theorem zadd_cast (x y : Int) : ((zadd G x y : Int) : ZMod G.r) = x + y := by
  rw [zadd, ZMod.intCast_mod]; push_cast; rfl

theorem zsub_cast (x y : Int) : ((zsub G x y : Int) : ZMod G.r) = x - y := by
  rw [zsub]; split
  · push_cast; simp
  · rw [ZMod.intCast_mod]; push_cast; rfl

theorem zneg_cast (x : Int) : ((zneg G x : Int) : ZMod G.r) = -x := by
  rw [zneg]; split
  · push_cast; simp
  · push_cast; rfl

theorem zmul_cast (x y : Int) : ((zmul G x y : Int) : ZMod G.r) = x * y := by
  rw [zmul]; split
  · push_cast; simp
  · rw [ZMod.intCast_mod]; push_cast; rfl

theorem pseudoRandomZR_cast (prf : Bytes → Bytes) (l : Bytes) : ((pseudoRandomZR G prf l : Int) : ZMod G.r) = (beNat (prf l) : ZMod G.r) := by
  rw [pseudoRandomZR, ZMod.intCast_mod]; push_cast; rfl

theorem randomZR_cast (x : Nat) : ((randomZR G x : Int) : ZMod G.r) = (x : ZMod G.r) := by
  rw [randomZR, ZMod.intCast_mod]; push_cast; rfl

/-- The scalar of a tag, as an element of the field. -/
def tagVal (t : Bytes) : ZMod G.r := (beNat (G.sha (0x01 :: t)) : ZMod G.r)

theorem hash_cast (b : Bytes) : ((hashToZR G b : Int) : ZMod G.r) = tagVal G b := by
  rw [hashToZR, tagVal]; split
  · rw [ZMod.intCast_mod]; push_cast; rfl
  · push_cast; rfl

end

theorem Grp.Ok.rpos (hG : G.Ok) : (0 : Int) < G.r := by have := hG.prime.pos; omega

theorem hash_range (hG : G.Ok) (b : Bytes) : 0 ≤ hashToZR G b ∧ hashToZR G b ≤ G.r := by
  have := hG.rpos
  rw [hashToZR]
  split
  · exact ⟨Int.emod_nonneg _ (by omega), le_of_lt (Int.emod_lt_of_pos _ this)⟩
  · constructor <;> omega

theorem zsub_range (hG : G.Ok) {x y : Int} (hx : 0 ≤ x ∧ x ≤ G.r) (hy : 0 ≤ y ∧ y ≤ G.r) : 0 ≤ zsub G x y ∧ zsub G x y < G.r := by
  have := hG.rpos
  rw [zsub]; split
  · constructor <;> omega
  · exact ⟨Int.emod_nonneg _ (by omega), Int.emod_lt_of_pos _ this⟩

theorem zdiv_spec (hG : G.Ok) (x : Int) {y : Int} (hy : 0 ≤ y ∧ y < G.r) :
    ((y : ZMod G.r) = 0 ∧ zdiv G x y = .exc .logicError) ∨
    ((y : ZMod G.r) ≠ 0 ∧ ∃ z, zdiv G x y = .ok z ∧ (z : ZMod G.r) * y = x) := by
  rw [zdiv]
  by_cases h0 : y = 0
  · rw [if_pos h0]; exact Or.inl ⟨by simp [h0], rfl⟩
  · rw [if_neg h0]
    refine Or.inr ⟨?_, _, rfl, ?_⟩
    · intro hc
      rw [ZMod.intCast_zmod_eq_zero_iff_dvd] at hc
      exact h0 (Int.eq_zero_of_dvd_of_nonneg_of_lt hy.1 hy.2 hc)
    · have h1 := hG.cofactor y (by omega) hy.2
      have h2 : ((y * G.cofactor y : Int) : ZMod G.r) = ((1 : Int) : ZMod G.r) := by
        rw [ZMod.intCast_eq_intCast_iff_dvd_sub]
        rw [← Int.dvd_neg]; simpa using h1
      have h3 : ((zinv G y : Int) : ZMod G.r) = (G.cofactor y : ZMod G.r) := by
        rw [zinv]; split
        · push_cast; simp
        · rfl
      rw [zmul_cast, h3]
      push_cast at h2
      linear_combination (x : ZMod G.r) * h2

/-- The Lagrange coefficients at zero for two points. -/
theorem lagrange_spec (hG : G.Ok) {c u : Int} (hc : 0 ≤ c ∧ c ≤ G.r) (hu : 0 ≤ u ∧ u ≤ G.r) :
    ((c : ZMod G.r) = u ∧ lagrange G 0 0 [c, u] = .exc .logicError) ∨
    ((c : ZMod G.r) ≠ u ∧ ∃ w0 ws, lagrange G 0 0 [c, u] = .ok w0 ∧ lagrange G 1 0 [c, u] = .ok ws ∧
      (w0 : ZMod G.r) * (c - u) = -u ∧ (ws : ZMod G.r) * (u - c) = -c) := by
  have e0 : lagrange G 0 0 [c, u] = (zdiv G (zsub G 0 u) (zsub G c u) >>= fun i => Res.ok (zmul G 1 i)) := by
    simp [lagrange, lagrangeStep]
  have e1 : lagrange G 1 0 [c, u] = (zdiv G (zsub G 0 c) (zsub G u c) >>= fun i => Res.ok (zmul G 1 i)) := by
    simp only [lagrange, lagrangeStep]
    simp only [ne_eq, Nat.one_ne_zero, not_false_eq_true, if_true, List.getElem?_cons_zero, List.getElem?_cons_succ]
    cases zdiv G (zsub G 0 c) (zsub G u c) <;> rfl
  rw [e0, e1]
  rcases zdiv_spec hG (zsub G 0 u) (zsub_range hG hc hu) with ⟨h1, h2⟩ | ⟨h1, z, h2, h3⟩
  · rw [h2]
    rw [zsub_cast] at h1
    exact Or.inl ⟨by linear_combination h1, rfl⟩
  · rw [zsub_cast] at h1 h3
    rcases zdiv_spec hG (zsub G 0 c) (zsub_range hG hu hc) with ⟨k1, k2⟩ | ⟨k1, z', k2, k3⟩
    · rw [zsub_cast] at k1
      exact absurd (by linear_combination -k1 : (c : ZMod G.r) - u = 0) h1
    · rw [zsub_cast] at k3
      rw [h2, k2]
      refine Or.inr ⟨fun hc => h1 (by rw [hc]; ring), _, _, rfl, rfl, ?_, ?_⟩
      · rw [zmul_cast]; rw [zsub_cast] at h3; push_cast at h3 ⊢; linear_combination h3
      · rw [zmul_cast]; rw [zsub_cast] at k3; push_cast at k3 ⊢; linear_combination k3

/-! ## Exponents -/

/-- Multiples depend on the scalar modulo the order. -/
theorem smul_congr {A : Type} [AddCommGroup A] {r : Nat} (hA : ∀ x : A, (r : Int) • x = 0) {a b : Int} (h : (a : ZMod r) = b) (x : A) : a • x = b • x := by
  rw [ZMod.intCast_eq_intCast_iff_dvd_sub] at h
  obtain ⟨k, hk⟩ := h
  have : b = a + k * r := by linear_combination hk
  rw [this, add_zsmul, mul_zsmul, hA]; simp

/-- A multiple of a generator is zero exactly if the scalar is. -/
theorem smul_eq_zero {A : Type} [AddCommGroup A] {r : Nat} (hp : r.Prime) (hA : ∀ x : A, (r : Int) • x = 0) {x : A} (hx : x ≠ 0) {a : Int} :
    a • x = 0 ↔ (a : ZMod r) = 0 := by
  constructor
  · intro h
    by_contra hc
    have hc' : ¬ (r : Int) ∣ a := by rwa [ZMod.intCast_zmod_eq_zero_iff_dvd] at hc
    have hcop : IsCoprime (r : Int) a := (Nat.prime_iff_prime_int.1 hp).coprime_iff_not_dvd.2 hc'
    obtain ⟨u, v, huv⟩ := hcop
    apply hx
    calc x = (u * r + v * a) • x := by rw [huv, one_zsmul]
      _ = 0 := by rw [add_zsmul, mul_zsmul, mul_zsmul, hA, h]; simp
  · intro h
    have := smul_congr hA (a := a) (b := 0) (by simpa using h) x
    simpa using this

theorem pair_smul_left (hG : G.Ok) (a : Int) (x : G1) (y : G2) : G.pair (a • x) y = a • G.pair x y :=
  map_zsmul (AddMonoidHom.mk' (fun x => G.pair x y) (fun x x' => hG.pair_add_left x x' y)) a x

theorem pair_smul_right (hG : G.Ok) (a : Int) (x : G1) (y : G2) : G.pair x (a • y) = a • G.pair x y :=
  map_zsmul (AddMonoidHom.mk' (fun y => G.pair x y) (fun y y' => hG.pair_add_right x y y')) a y

theorem pair_gen (hG : G.Ok) (a b : Int) : G.pair (a • G.g1) (b • G.g2) = (a * b) • G.gT := by
  rw [pair_smul_left hG, pair_smul_right hG, hG.gen, mul_zsmul]

theorem powGT_eq (g : GT) (z : Int) : powGT g z = z • g := by
  rw [powGT]; split
  · next h => rw [h]; simp
  · rfl

/-! ## Shares -/

/-- A share for its tag with content `c`: `sk1 = g^{β(c + ρ)}`, `sk2 = g^{ρ(β + h·ry)}`, `sk3 = g^ρ`. -/
def Good (G : Grp G1 G2 GT) (sp : Params) (s : Share G2) (c : ZMod G.r) : Prop :=
  ∃ rho a1 a2 : Int, s.sk3 = rho • G.g2 ∧ s.sk1 = a1 • G.g2 ∧ s.sk2 = a2 • G.g2 ∧
    (a1 : ZMod G.r) = sp.beta * (c + rho) ∧ (a2 : ZMod G.r) = rho * (sp.beta + tagVal G s.sk4 * sp.ry)

/-- A ciphertext for the scalar `s`. -/
def GoodCt (G : Grp G1 G2 GT) (sp : Params) (c : Ct G1) (s : Int) : Prop :=
  ∃ e : Int, c.ct2 = s • G.g1 ∧ c.ct3 = e • G.g1 ∧ (e : ZMod G.r) = s * (sp.beta + tagVal G c.tag * sp.ry)

theorem shareFactor_collision (hG : G.Ok) (sh : Share G2) (ct : Ct G1) (h : tagVal G ct.tag = tagVal G sh.sk4) :
    shareFactor G sh ct = .exc .logicError := by
  rcases lagrange_spec hG (hash_range hG ct.tag) (hash_range hG sh.sk4) with ⟨-, h2⟩ | ⟨h1, -⟩
  · simp only [shareFactor, h2]; rfl
  · rw [hash_cast, hash_cast] at h1; exact absurd h h1

theorem shareFactor_noncollision (hG : G.Ok) (sh : Share G2) (ct : Ct G1) (h : tagVal G ct.tag ≠ tagVal G sh.sk4) :
    ∃ z, shareFactor G sh ct = .ok z := by
  rcases lagrange_spec hG (hash_range hG ct.tag) (hash_range hG sh.sk4) with ⟨h1, -⟩ | ⟨-, w0, ws, h2, h3, -⟩
  · rw [hash_cast, hash_cast] at h1; exact absurd h1 h
  · simp only [shareFactor, h2, h3, Res.bind_ok]; exact ⟨_, rfl⟩

theorem shareFactor_good (hG : G.Ok) {sp : Params} {sh : Share G2} {ct : Ct G1} {c : ZMod G.r} {s : Int} (hs : Good G sp sh c) (hc : GoodCt G sp ct s)
    (h : tagVal G ct.tag ≠ tagVal G sh.sk4) {e : Int} (he : (e : ZMod G.r) = s * sp.beta * c) : shareFactor G sh ct = .ok (e • G.gT) := by
  have := Fact.mk hG.prime
  obtain ⟨rho, a1, a2, k3, k1, k2, q1, q2⟩ := hs
  obtain ⟨f, c2, c3, qf⟩ := hc
  rcases lagrange_spec hG (hash_range hG ct.tag) (hash_range hG sh.sk4) with ⟨h1, -⟩ | ⟨-, w0, ws, h2, h3, e1, e2⟩
  · rw [hash_cast, hash_cast] at h1; exact absurd h1 h
  rw [hash_cast, hash_cast] at e1 e2
  simp only [shareFactor, h2, h3, Res.bind_ok]
  have hne : tagVal G ct.tag - tagVal G sh.sk4 ≠ 0 := sub_ne_zero.2 h
  have hsum : (w0 : ZMod G.r) + ws = 1 := by
    apply mul_right_cancel₀ hne
    linear_combination e1 - e2
  have hlin : (w0 : ZMod G.r) * tagVal G ct.tag + ws * tagVal G sh.sk4 = 0 := by
    linear_combination e1 + tagVal G sh.sk4 * hsum
  show Res.ok _ = Res.ok _
  congr 1
  rw [c2, c3, k1, k2, k3, zero_add, ← mul_zsmul, ← mul_zsmul, pair_gen hG, pair_gen hG, pair_gen hG, ← add_zsmul, ← sub_smul]
  apply smul_congr hG.torT
  push_cast
  rw [q1, q2, qf, he]
  linear_combination (-(s : ZMod G.r) * sp.beta * rho) * hsum - (s : ZMod G.r) * rho * sp.ry * hlin

theorem foldl_add_eq_sum (l : List GT) (a : GT) : l.foldl (· + ·) a = a + l.sum := by
  induction l generalizing a with
  | nil => simp
  | cons x r ih => rw [List.foldl_cons, ih, List.sum_cons, add_assoc]

/-- The product over all shares. -/
theorem recoverBlind_good (hG : G.Ok) {sp : Params} {sk : List (Share G2)} {cs : List (ZMod G.r)} {ct : Ct G1} {s : Int}
    (hs : List.Forall₂ (Good G sp) sk cs) (hc : GoodCt G sp ct s) (h : ∀ sh ∈ sk, tagVal G ct.tag ≠ tagVal G sh.sk4) {e : Int}
    (he : (e : ZMod G.r) = s * sp.beta * cs.sum) : recoverBlind G sk ct = .ok (e • G.gT) := by
  have key : ∃ zs, factors G sk ct = .ok zs ∧ ∀ e : Int, (e : ZMod G.r) = s * sp.beta * cs.sum → zs.sum = e • G.gT := by
    clear he
    induction hs with
    | nil =>
      refine ⟨[], rfl, fun e he => ?_⟩
      rw [List.sum_nil, mul_zero] at he
      rw [List.sum_nil, smul_congr hG.torT (a := e) (b := 0) (by simpa using he)]; simp
    | @cons sh c sk cs hd tl ih =>
      obtain ⟨zs, h1, h2⟩ := ih (fun x hx => h x (List.mem_cons_of_mem _ hx))
      obtain ⟨e1, he1⟩ := ZMod.intCast_surjective ((s : ZMod G.r) * (sp.beta : ZMod G.r) * c)
      obtain ⟨e2, he2⟩ := ZMod.intCast_surjective ((s : ZMod G.r) * (sp.beta : ZMod G.r) * cs.sum)
      refine ⟨e1 • G.gT :: zs, ?_, fun e he => ?_⟩
      · rw [factors, shareFactor_good hG hd hc (h sh (List.mem_cons_self ..)) he1, h1]; rfl
      · rw [List.sum_cons, h2 e2 he2, ← add_zsmul]
        apply smul_congr hG.torT
        push_cast
        rw [he1, he2, he, List.sum_cons]; ring
  obtain ⟨zs, h1, h2⟩ := key
  rw [recoverBlind, h1, Res.bind_ok, foldl_add_eq_sum, zero_add, h2 e he]
  rfl

end Verif.Ppke
