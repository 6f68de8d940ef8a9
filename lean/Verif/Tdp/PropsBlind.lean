import Verif.Tdp.SpecBlind
import Verif.Tdp.PropsHard
import Mathlib.NumberTheory.LegendreSymbol.JacobiSymbol
import Mathlib.Tactic.NormNum.LegendreSymbol

/-!
# What blinding hides (C105)
-/

namespace Verif.Tdp.Blind

open Verif Verif.Tdp Verif.Avg Verif.Tdp.Hard

/-! ## The operands -/

theorem crtPrivate_operand {N : Nat} (hN : 0 < N) (s : Priv) (vi vf T U R1 R2 : Nat) (h : T * vi % N = U * vi % N) :
    crtPrivate N s vi vf T R1 R2 = crtPrivate N s vi vf U R1 R2 := by
  unfold crtPrivate
  rw [mpiMod_nat hN, mpiMod_nat hN, h]

theorem private_some {rng : Nat → Nat → Nat} {k : Rsa} {s : Priv} (h : TdpKey k s) {vi vf : Nat} (hb : k.blind = some (vi, vf)) (i : Nat) {y : Bytes}
    (hy : beNat y < k.N) : (rsaPrivate rng k i y).key = { k with blind := some (vi * vi % k.N, vf * vf % k.N) } := by
  unfold rsaPrivate prepBlind
  simp only [h.priv, hb]
  rw [if_neg (by omega), mpiMod_nat h.key.Npos, mpiMod_nat h.key.Npos]
  simp only
  split <;> rfl

theorem private_none {rng : Nat → Nat → Nat} {k : Rsa} {s : Priv} (h : TdpKey k s) (hb : k.blind = none) {i : Nat} (hg : Nat.gcd (rng i 255) k.N = 1) {y : Bytes}
    (hy : beNat y < k.N) : ∃ a, a * rng i 255 ^ k.E ≡ 1 [MOD k.N] ∧ (rsaPrivate rng k i y).key = { k with blind := some (a, rng i 255) } := by
  obtain ⟨inv, hi, hlt, hm⟩ := mpiInv_spec h.one_lt hg
  refine ⟨inv ^ k.E % k.N, ?_, ?_⟩
  · refine ((Nat.mod_modEq _ _).mul_right _).trans ?_
    rw [← mul_pow]
    have : inv * rng i 255 ≡ 1 [MOD k.N] := by
      unfold Nat.ModEq
      rw [mul_comm, hm, Nat.mod_eq_of_lt h.one_lt]
    simpa using this.pow k.E
  · unfold rsaPrivate prepBlind
    simp only [h.priv, hb]
    rw [if_neg (by omega), drawVf, h.len, mpiGcd_pos h.key.Npos]
    simp only [show 256 - 1 = 255 from rfl, hg, if_true, hi]
    rw [mpiExpMod_odd h.key.Nodd]
    simp only
    split <;> rfl

theorem blinded_cons (N a y : Nat) (ys : List Nat) : blinded N a (y :: ys) = y * a % N :: blinded N (a * a) ys := by
  unfold blinded
  rw [List.mapIdx_cons]
  congr 1
  · simp
  · congr 1
    funext j y
    rw [← pow_two, ← pow_mul, pow_succ, mul_comm (2 ^ j)]

theorem blinded_congr {N a b : Nat} (h : a ≡ b [MOD N]) (ys : List Nat) : blinded N a ys = blinded N b ys := by
  unfold blinded
  congr 1
  funext j y
  exact (h.pow (2 ^ j)).mul_left y

theorem operands_some {rng : Nat → Nat → Nat} {s : Priv} : ∀ (ys : List Bytes) {k : Rsa} (_ : TdpKey k s) {vi vf : Nat} (_ : k.blind = some (vi, vf)) (i : Nat)
    (_ : ∀ y ∈ ys, beNat y < k.N), operands rng k i ys = blinded k.N (vi * vi) (ys.map beNat)
  | [], k, _, _, _, _, _, _ => rfl
  | y :: ys, k, h, vi, vf, hb, i, hy => by
    have h1 := private_some (rng := rng) h hb i (hy y List.mem_cons_self)
    rw [operands, List.map_cons, blinded_cons]
    simp only [h1]
    rw [operands_some ys (h.withBlind _) rfl _ fun z hz => hy z (List.mem_cons_of_mem _ hz)]
    congr 1
    · rw [Nat.mul_mod, Nat.mod_mod, ← Nat.mul_mod]
    · exact blinded_congr ((Nat.mod_modEq _ _).mul (Nat.mod_modEq _ _)) _

/-- **C105**: on a new object whose first random number `V` is invertible, the exponentiations of the calls work on the messages times `a`, `a ^ 2`, `a ^ 4`, ...,
where `a` is the inverse of the evaluation of `V`. -/
theorem c105_operands {rng : Nat → Nat → Nat} {k : Rsa} {s : Priv} (h : TdpKey k s) (hb : k.blind = none) {i : Nat} (hg : Nat.gcd (rng i 255) k.N = 1)
    {ys : List Bytes} (hy : ∀ y ∈ ys, beNat y < k.N) :
    ∃ a, a * rng i 255 ^ k.E ≡ 1 [MOD k.N] ∧ operands rng k i ys = blinded k.N a (ys.map beNat) := by
  rcases ys with _ | ⟨y, ys⟩
  · obtain ⟨a, ha, -⟩ := private_none h hb hg (y := []) (by rw [show beNat [] = 0 from rfl]; exact h.key.Npos)
    exact ⟨a, ha, rfl⟩
  · obtain ⟨a, ha, h1⟩ := private_none h hb hg (hy y List.mem_cons_self)
    refine ⟨a, ha, ?_⟩
    rw [operands, List.map_cons, blinded_cons]
    simp only [h1]
    rw [operands_some ys (h.withBlind _) rfl _ fun z hz => hy z (List.mem_cons_of_mem _ hz)]

/-- **C105**: and on nothing else: two messages with the same operand are treated alike. -/
theorem c105_only {k : Rsa} {s : Priv} (h : TdpKey k s) (vi vf T U R1 R2 : Nat) (hT : T * vi % k.N = U * vi % k.N) :
    crtPrivate k.N s vi vf T R1 R2 = crtPrivate k.N s vi vf U R1 R2 := crtPrivate_operand h.key.Npos s vi vf T U R1 R2 hT

/-! ## What the operands show -/

theorem blinded_get (N a : Nat) (ys : List Nat) {j : Nat} (hj : j < ys.length) : (blinded N a ys)[j]? = some (ys[j] * a ^ 2 ^ j % N) := by
  simp [blinded, List.getElem?_eq_getElem hj]

theorem gcd_of_mul {N a b : Nat} (h : a * b ≡ 1 [MOD N]) : Nat.gcd a N = 1 := by
  have h2 : Nat.Coprime (a * b) N := by
    have := h.gcd_eq
    rw [Nat.gcd_one_left] at this
    exact this
  exact Nat.Coprime.coprime_mul_right h2

theorem gcd_mod (a N : Nat) : Nat.gcd (a % N) N = Nat.gcd a N := by
  rw [← Nat.gcd_rec, Nat.gcd_comm]

/-- **C105**, false: successive operands are not independent; anybody who sees two of them can check a guess of the two messages. -/
theorem c105_relation_false {rng : Nat → Nat → Nat} {k : Rsa} {s : Priv} (h : TdpKey k s) (hb : k.blind = none) {i : Nat} (hg : Nat.gcd (rng i 255) k.N = 1)
    {ys : List Bytes} (hy : ∀ y ∈ ys, beNat y < k.N) {j : Nat} (hj : j + 1 < ys.length) :
    ∃ o o', (operands rng k i ys)[j]? = some o ∧ (operands rng k i ys)[j + 1]? = some o' ∧ o' * beNat ys[j] ^ 2 ≡ beNat ys[j + 1] * o ^ 2 [MOD k.N] := by
  obtain ⟨a, -, h1⟩ := c105_operands h hb hg hy
  have hl : (ys.map beNat).length = ys.length := List.length_map _
  refine ⟨_, _, by rw [h1, blinded_get k.N a _ (j := j) (by omega)], by rw [h1, blinded_get k.N a _ (j := j + 1) (by omega)], ?_⟩
  rw [List.getElem_map, List.getElem_map]
  refine ((Nat.mod_modEq _ _).mul_right _).trans ?_
  refine Nat.ModEq.trans ?_ (((Nat.mod_modEq _ _).pow 2).mul_left _).symm
  rw [mul_pow, pow_succ 2 j, pow_mul]
  have : beNat ys[j + 1] * (a ^ 2 ^ j) ^ 2 * beNat ys[j] ^ 2 = beNat ys[j + 1] * (beNat ys[j] ^ 2 * (a ^ 2 ^ j) ^ 2) := by ring
  rw [this]

/-- **C105**, false: from the second call on, the operand shows the Jacobi symbol of the message, which anybody can compute. -/
theorem c105_jacobi_false {rng : Nat → Nat → Nat} {k : Rsa} {s : Priv} (h : TdpKey k s) (hb : k.blind = none) {i : Nat} (hg : Nat.gcd (rng i 255) k.N = 1)
    {ys : List Bytes} (hy : ∀ y ∈ ys, beNat y < k.N) {j : Nat} (hj : j + 1 < ys.length) :
    ∃ o, (operands rng k i ys)[j + 1]? = some o ∧ jacobiSym o k.N = jacobiSym (beNat ys[j + 1]) k.N := by
  obtain ⟨a, ha, h1⟩ := c105_operands h hb hg hy
  have hl : (ys.map beNat).length = ys.length := List.length_map _
  refine ⟨_, by rw [h1, blinded_get k.N a _ (j := j + 1) (by omega)], ?_⟩
  rw [List.getElem_map]
  push_cast
  rw [← jacobiSym.mod_left, jacobiSym.mul_left, pow_succ, pow_mul, jacobiSym.pow_left, jacobiSym.sq_one, mul_one]
  rw [← Nat.cast_pow, Int.gcd_natCast_natCast]
  exact Nat.Coprime.pow_left _ (gcd_of_mul ha)

/-! ## What they would hide if the first number was uniform -/

instance {N : Nat} [h : Fact (1 < N)] : Nonempty (Inv N) := ⟨⟨⟨1, h.out⟩, Nat.gcd_one_left _⟩⟩

/-- The operands on a new object whose first random number is `V`. -/
def seen (k : Rsa) (rng : Nat → Nat → Nat) (V : Nat) (ys : List Bytes) : List Nat := operands (source V rng) k 0 ys

theorem seen_eq {k : Rsa} {s : Priv} (h : TdpKey k s) (hb : k.blind = none) (rng : Nat → Nat → Nat) {V : Nat} (hV : Nat.gcd V k.N = 1) {ys : List Bytes}
    (hy : ∀ y ∈ ys, beNat y < k.N) : ∃ a, a * V ^ k.E ≡ 1 [MOD k.N] ∧ seen k rng V ys = blinded k.N a (ys.map beNat) := by
  have e : source V rng 0 255 = V := if_pos rfl
  have := c105_operands (rng := source V rng) (i := 0) h hb (by rw [e]; exact hV) hy
  rw [e] at this
  exact this

theorem inv_unique {N a b v : Nat} (ha : a * v ≡ 1 [MOD N]) (hb : b * v ≡ 1 [MOD N]) : a ≡ b [MOD N] := by
  have h1 : a * (b * v) ≡ a * 1 [MOD N] := hb.mul_left a
  have h2 : b * (a * v) ≡ b * 1 [MOD N] := ha.mul_left b
  have e : a * (b * v) = b * (a * v) := by ring
  rw [e] at h1
  rw [mul_one] at h1 h2
  exact h1.symm.trans h2

theorem exponent_ne {k : Rsa} {s : Priv} (h : TdpKey k s) : k.E ≠ 0 := by
  intro h0
  have := h.key.inj (a := 0) (b := 1) (by rw [h0, pow_zero, pow_zero])
  unfold Nat.ModEq at this
  rw [Nat.zero_mod, Nat.mod_eq_of_lt h.one_lt] at this
  omega

/-- Multiplication by an invertible number. -/
noncomputable def mulInv {N c : Nat} (h1 : 1 < N) (hc : Nat.gcd c N = 1) : Inv N ≃ Inv N :=
  Equiv.ofBijective (fun v => ⟨⟨v.1.val * c % N, Nat.mod_lt _ (by omega)⟩, by
    rw [gcd_mod]; exact Nat.Coprime.mul_left v.2 hc⟩) <| by
    refine Finite.injective_iff_bijective.1 fun a b hab => ?_
    have e : a.1.val * c ≡ b.1.val * c [MOD N] := congrArg (fun x : Inv N => x.1.val) hab
    have e2 : a.1.val ≡ b.1.val [MOD N] := Nat.ModEq.cancel_right_of_coprime (by rw [Nat.gcd_comm]; exact hc) e
    unfold Nat.ModEq at e2
    rw [Nat.mod_eq_of_lt a.1.2, Nat.mod_eq_of_lt b.1.2] at e2
    exact Subtype.ext (Fin.ext e2)

theorem blinded_alike {N a c : Nat} {ys zs : List Nat} (hl : ys.length = zs.length)
    (hz : ∀ j (h1 : j < ys.length) (h2 : j < zs.length), zs[j] % N = ys[j] * c ^ 2 ^ j % N) : blinded N a zs = blinded N (a * c) ys := by
  apply List.ext_getElem
  · simp [blinded, hl]
  · intro j h1 h2
    simp only [blinded, List.length_mapIdx] at h1 h2
    simp only [blinded, List.getElem_mapIdx]
    have := hz j h2 h1
    rw [mul_pow, Nat.mul_mod, this, ← Nat.mul_mod]
    congr 1
    ring

/-- **C105**: if the first number was uniform among the invertible ones, sequences of messages that differ by `c`, `c ^ 2`, `c ^ 4`, ... would look the same. -/
theorem c105_same_partial {k : Rsa} {s : Priv} (h : TdpKey k s) (hb : k.blind = none) (rng : Nat → Nat → Nat) {ys zs : List Bytes}
    (hy : ∀ y ∈ ys, beNat y < k.N) (hz : ∀ z ∈ zs, beNat z < k.N) (hal : Alike k.N (ys.map beNat) (zs.map beNat)) (f : List Nat → ℚ) :
    (E fun V : Inv k.N => f (seen k rng V.1 ys)) = E fun V : Inv k.N => f (seen k rng V.1 zs) := by
  obtain ⟨hl, c, hc, hcz⟩ := hal
  -- a number whose evaluation is the inverse of `c`
  obtain ⟨i, -, hil, hi⟩ := mpiInv_spec h.one_lt hc
  obtain ⟨w, hw⟩ := (perm h).surjective ⟨i, hil⟩
  have hwE : w.val ^ k.E ≡ i [MOD k.N] := by
    have := congrArg Fin.val hw
    rw [perm_val] at this
    unfold Nat.ModEq
    rw [this, Nat.mod_eq_of_lt hil]
  have hci : c * i ≡ 1 [MOD k.N] := by
    unfold Nat.ModEq
    rw [hi, Nat.mod_eq_of_lt h.one_lt]
  have hwg : Nat.gcd w.val k.N = 1 := by
    have : c * w.val ^ k.E ≡ 1 [MOD k.N] := (hwE.mul_left c).trans hci
    have h2 := gcd_of_mul (show w.val ^ k.E * c ≡ 1 [MOD k.N] by rw [mul_comm]; exact this)
    exact (Nat.coprime_pow_left_iff (Nat.pos_of_ne_zero (exponent_ne h)) _ _).1 h2
  refine Eq.trans (E_equiv (mulInv h.one_lt hwg) fun V : Inv k.N => f (seen k rng V.1 ys)).symm (congrArg E ?_)
  funext V
  congr 1
  obtain ⟨a, ha, h1⟩ := seen_eq h hb rng (mulInv h.one_lt hwg V).2 hy
  obtain ⟨b, hb', h2⟩ := seen_eq h hb rng V.2 hz
  rw [h1, h2, blinded_alike hl hcz]
  apply blinded_congr
  refine inv_unique ha ?_
  have e : (mulInv h.one_lt hwg V).1.val = V.1.val * w.val % k.N := rfl
  rw [e]
  refine (((Nat.mod_modEq _ _).pow _).mul_left _).trans ?_
  rw [mul_pow]
  have e2 : b * c * (V.1.val ^ k.E * w.val ^ k.E) = (b * V.1.val ^ k.E) * (c * w.val ^ k.E) := by ring
  rw [e2]
  exact hb'.mul ((hwE.mul_left c).trans hci)

/-- **C105**: a single operand would be a uniform invertible number, whatever the message. -/
theorem c105_first_partial {k : Rsa} {s : Priv} (h : TdpKey k s) (hb : k.blind = none) (rng : Nat → Nat → Nat) {y z : Bytes}
    (hy : beNat y < k.N) (hz : beNat z < k.N) (hyc : Nat.gcd (beNat y) k.N = 1) (hzc : Nat.gcd (beNat z) k.N = 1) (f : List Nat → ℚ) :
    (E fun V : Inv k.N => f (seen k rng V.1 [y])) = E fun V : Inv k.N => f (seen k rng V.1 [z]) := by
  obtain ⟨i, -, hil, hi⟩ := mpiInv_spec h.one_lt hyc
  have hyi : beNat y * i ≡ 1 [MOD k.N] := by
    unfold Nat.ModEq
    rw [hi, Nat.mod_eq_of_lt h.one_lt]
  refine c105_same_partial (ys := [y]) (zs := [z]) h hb rng (by simpa using hy) (by simpa using hz) ⟨rfl, i * beNat z, ?_, ?_⟩ f
  · exact Nat.Coprime.mul_left (gcd_of_mul (by rw [mul_comm]; exact hyi)) hzc
  · intro j h1 h2
    have hj : j = 0 := by simpa using h1
    subst hj
    simp only [List.map_cons, List.map_nil, List.getElem_cons_zero, pow_zero, pow_one]
    rw [← mul_assoc]
    have := hyi.mul_right (beNat z)
    rw [one_mul] at this
    exact this.symm

/-- **C105**, false: sequences that differ in another way never look the same, whatever the first numbers are. -/
theorem c105_apart_false {k : Rsa} {s : Priv} (h : TdpKey k s) (hb : k.blind = none) (rng : Nat → Nat → Nat) {ys zs : List Bytes}
    (hy : ∀ y ∈ ys, beNat y < k.N) (hz : ∀ z ∈ zs, beNat z < k.N) (hal : ¬ Alike k.N (ys.map beNat) (zs.map beNat)) {V W : Nat}
    (hV : Nat.gcd V k.N = 1) (hW : Nat.gcd W k.N = 1) : seen k rng V ys ≠ seen k rng W zs := by
  intro he
  apply hal
  obtain ⟨a, ha, h1⟩ := seen_eq h hb rng hV hy
  obtain ⟨b, hb', h2⟩ := seen_eq h hb rng hW hz
  rw [h1, h2] at he
  have hl : (ys.map beNat).length = (zs.map beNat).length := by
    have := congrArg List.length he
    simpa [blinded] using this
  -- the factor: `a` times the inverse of `b`
  refine ⟨hl, a * W ^ k.E, ?_, ?_⟩
  · refine Nat.Coprime.mul_left (gcd_of_mul ha) ?_
    exact Nat.Coprime.pow_left _ hW
  · intro j h1 h2
    have e1 := blinded_get k.N a _ h1
    have e2 := blinded_get k.N b _ h2
    rw [he, e2] at e1
    have e3 : (zs.map beNat)[j] * b ^ 2 ^ j ≡ (ys.map beNat)[j] * a ^ 2 ^ j [MOD k.N] := Option.some.inj e1
    have e4 := e3.mul_right ((W ^ k.E) ^ 2 ^ j)
    rw [mul_assoc, mul_assoc, ← mul_pow, ← mul_pow] at e4
    have e5 := ((hb'.pow (2 ^ j)).mul_left (zs.map beNat)[j])
    rw [one_pow, mul_one] at e5
    exact e5.symm.trans e4

/-! ## The numbers that the code draws are too short -/

theorem card_inv {P Q : Nat} (hP : P.Prime) (hQ : Q.Prime) (hne : P ≠ Q) : Fintype.card (Inv (P * Q)) = (P - 1) * (Q - 1) := by
  have h1 : Fintype.card (Inv (P * Q)) = ∑ v : Fin (P * Q), if Nat.gcd v.val (P * Q) = 1 then 1 else 0 := by
    rw [← Finset.card_filter]
    exact Fintype.card_subtype _
  rw [h1, Fin.sum_univ_eq_sum_range (fun v => if Nat.gcd v (P * Q) = 1 then 1 else 0) (P * Q), ← Finset.card_filter,
    ← Nat.totient_prime hP, ← Nat.totient_prime hQ, ← Nat.totient_mul ((Nat.coprime_primes hP hQ).2 hne)]
  unfold Nat.totient
  congr 1
  ext v
  simp only [Finset.mem_filter, Nat.Coprime, Nat.gcd_comm]

theorem seen_one {k : Rsa} {s : Priv} (h : TdpKey k s) (hb : k.blind = none) (rng : Nat → Nat → Nat) {V : Nat} (hV : Nat.gcd V k.N = 1) :
    ∃ a, a * V ^ k.E ≡ 1 [MOD k.N] ∧ ∀ y, beNat y < k.N → seen k rng V [y] = [beNat y * a % k.N] := by
  obtain ⟨a, ha, -⟩ := seen_eq h hb rng (ys := []) hV (by simp)
  refine ⟨a, ha, fun y hy => ?_⟩
  obtain ⟨b, hb', h2⟩ := seen_eq h hb rng (ys := [y]) hV (by simpa using hy)
  rw [h2, blinded_congr (inv_unique hb' ha)]
  simp [blinded]

theorem prob_iff {p q : Prop} [Decidable p] [Decidable q] (h : p ↔ q) : prob p = prob q := by
  unfold prob
  by_cases hp : p
  · rw [if_pos hp, if_pos (h.1 hp)]
  · rw [if_neg hp, if_neg fun hq => hp (h.2 hq)]

open Classical in
theorem possible_few {L N Ex : Nat} {y : Nat} :
    (∑ z : Inv N, prob (∃ V, V < L ∧ Nat.gcd V N = 1 ∧ z.1.val * V ^ Ex % N = y % N)) ≤ (L : ℚ) := by
  unfold prob
  rw [Finset.sum_boole]
  have : (Finset.univ.filter fun z : Inv N => ∃ V, V < L ∧ Nat.gcd V N = 1 ∧ z.1.val * V ^ Ex % N = y % N).card ≤ (Finset.range L).card := by
    refine Finset.card_le_card_of_injOn (fun z => if hz : ∃ V, V < L ∧ Nat.gcd V N = 1 ∧ z.1.val * V ^ Ex % N = y % N then hz.choose else 0) ?_ ?_
    · intro z hz
      have hz' := (Finset.mem_filter.1 hz).2
      simp only [dif_pos hz']
      exact Finset.mem_coe.2 (Finset.mem_range.2 hz'.choose_spec.1)
    · intro z hz w hw he
      have hz' := (Finset.mem_filter.1 hz).2
      have hw' := (Finset.mem_filter.1 hw).2
      simp only [dif_pos hz', dif_pos hw'] at he
      have e1 := hz'.choose_spec.2
      have e2 := hw'.choose_spec.2
      rw [← he] at e2
      have e3 : z.1.val * hz'.choose ^ Ex ≡ w.1.val * hz'.choose ^ Ex [MOD N] := e1.2.trans e2.2.symm
      have e4 : z.1.val ≡ w.1.val [MOD N] :=
        Nat.ModEq.cancel_right_of_coprime (by rw [Nat.gcd_comm]; exact Nat.Coprime.pow_left _ e1.1) e3
      unfold Nat.ModEq at e4
      rw [Nat.mod_eq_of_lt z.1.2, Nat.mod_eq_of_lt w.1.2] at e4
      exact Subtype.ext (Fin.ext e4)
  rw [Finset.card_range] at this
  exact_mod_cast this

open Classical in
theorem possible_sum (k : Rsa) (y : Nat) : (∑ z : Inv k.N, prob (Possible k y z.1.val)) ≤ ((256 ^ (k.len - 1) : ℕ) : ℚ) := by
  refine le_trans (le_of_eq (Finset.sum_congr rfl fun z _ => ?_)) (possible_few (N := k.N) (Ex := k.E) (y := y))
  exact prob_iff Iff.rfl

open Classical in
/-- **C105**, false: the code draws the first number with one byte less than the modulus.  Whoever can invert can tell the operand of a message from that of another
one: all operands of `y` are possible ones for `y`, but those of a random message only with a probability of at most `256 ^ 255 / ((P - 1) * (Q - 1))`. -/
theorem c105_short_false {k : Rsa} {s : Priv} (h : TdpKey k s) (hb : k.blind = none) (rng : Nat → Nat → Nat) {y : Bytes} (hy : beNat y < k.N)
    (V : Short k.len k.N) :
    (∃ o, seen k rng V.1 [y] = [o] ∧ Possible k (beNat y) o) ∧
    (E fun z : Inv k.N => prob (∃ o, seen k rng V.1 [beBytes 256 z.1] = [o] ∧ Possible k (beNat y) o))
      ≤ (256 ^ (k.len - 1) : ℕ) / ((s.P - 1) * (s.Q - 1) : ℕ) := by
  obtain ⟨a, ha, h1⟩ := seen_one h hb rng V.2
  constructor
  · refine ⟨_, h1 y hy, V.1, V.1.2, V.2, ?_⟩
    have : beNat y * a % k.N * V.1.val ^ k.E ≡ beNat y [MOD k.N] := by
      refine ((Nat.mod_modEq _ _).mul_right _).trans ?_
      rw [mul_assoc]
      simpa using ha.mul_left (beNat y)
    exact this
  · have hag := gcd_of_mul ha
    have e : (fun z : Inv k.N => prob (∃ o, seen k rng V.1 [beBytes 256 z.1] = [o] ∧ Possible k (beNat y) o)) =
        fun z => prob (Possible k (beNat y) (mulInv h.one_lt hag z).1.val) := by
      funext z
      have hz : beNat (beBytes 256 z.1.val) = z.1.val := beNat_beBytes_of_lt (lt_trans z.1.2 h.size)
      have h2 := h1 (beBytes 256 z.1.val) (by rw [hz]; exact z.1.2)
      rw [hz] at h2
      have h3 : (mulInv h.one_lt hag z).1.val = z.1.val * a % k.N := rfl
      unfold prob
      congr 1
      rw [h2, h3]
      refine propext ⟨?_, fun hp => ⟨_, rfl, hp⟩⟩
      rintro ⟨o, ho, hp⟩
      have := (List.cons.inj ho).1
      rw [this]
      exact hp
    rw [e, E_equiv (mulInv h.one_lt hag) fun z : Inv k.N => prob (Possible k (beNat y) z.1.val)]
    unfold E
    have hc : Fintype.card (Inv k.N) = (s.P - 1) * (s.Q - 1) := by
      rw [h.key.mod]
      exact card_inv h.key.primeP h.key.primeQ h.key.ne
    rw [hc]
    refine div_le_div_of_nonneg_right ?_ (Nat.cast_nonneg _)
    exact possible_sum k (beNat y)

/-! ## Examples -/

/-- A new key, an invertible first number and messages prime to the modulus. -/
example : exKey.blind = none ∧ Nat.gcd ((fun _ _ => 2 : Nat → Nat → Nat) 0 255) exKey.N = 1 ∧ 
    ∀ y ∈ [beBytes 256 2, beBytes 256 5, beBytes 256 7], beNat y < exKey.N ∧ Nat.gcd (beNat y) exKey.N = 1 := by
  refine ⟨rfl, by decide +kernel, by decide +kernel⟩

/-- Both symbols occur. -/
example : jacobiSym (5 : ℕ) exKey.N = -1 ∧ jacobiSym (4 : ℕ) exKey.N = 1 := by
  constructor
  · have h4 : 5 % 4 = 1 := rfl
    rw [jacobiSym.quadratic_reciprocity_one_mod_four h4 (by decide +kernel), jacobiSym.mod_left,
      show ((exKey.N : ℕ) : ℤ) % ((5 : ℕ) : ℤ) = 2 by decide +kernel]
    norm_num
  · rw [show ((4 : ℕ) : ℤ) = 2 ^ 2 by norm_num]
    exact jacobiSym.sq_one' (by decide +kernel)

/-- Sequences of two messages that blinding tells apart, and two that it does not. -/
example : ¬ Alike exKey.N [1, 1] [1, 2] ∧ Alike exKey.N [1, 1] [3, 9] := by
  constructor
  · rintro ⟨-, c, -, hc⟩
    have h0 := hc 0 (by simp) (by simp)
    have h1 := hc 1 (by simp) (by simp)
    simp only [List.getElem_cons_zero, List.getElem_cons_succ, pow_zero, pow_one, one_mul] at h0 h1
    have h2 : c ^ 2 ≡ 1 ^ 2 [MOD exKey.N] := (show c ≡ 1 [MOD exKey.N] from h0.symm).pow 2
    have h3 : 2 % exKey.N = 1 ^ 2 % exKey.N := h1.trans h2
    revert h3
    decide +kernel
  · refine ⟨rfl, 3, by decide +kernel, ?_⟩
    intro j h1 h2
    have : j = 0 ∨ j = 1 := by
      simp only [List.length_cons, List.length_nil] at h1
      omega
    rcases this with rfl | rfl <;> rfl

/-- For the example key the operand of a random message is possible for another one with a probability below 1 / 200. -/
example : 200 * 256 ^ (exKey.len - 1) ≤ (exPriv.P - 1) * (exPriv.Q - 1) := by
  decide +kernel

end Verif.Tdp.Blind
